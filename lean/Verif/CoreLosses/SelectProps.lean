import Mathlib.Tactic.Tauto
import Mathlib.Tactic.SplitIfs
import Mathlib.Tactic.Push
import Verif.CoreLosses.Select

/-!
# Core losses: which model and which data (C150, C151)
-/

set_option linter.unusedSimpArgs false
set_option linter.unusedSectionVars false

namespace Verif.CoreLosses

/-! ## Specification -/

/-- The material has, in some variant, data of a method. -/
def Has {D : Type} (m : Material D) (a : Method) : Prop := ∃ v ∈ m.volumetric, ∃ d : D, Entry.data a d ∈ v.2

/-- The material has data a model can use. -/
def Offers {D : Type} (m : Material D) : Model → Prop
  | .steinmetz | .igse | .cigse | .barg | .albach | .mse => Has m .steinmetz
  | .nse => False
  | .roshen => Has m .roshen
  | .lossFactor => Has m .lossFactor
  | .proprietary => (∃ a, (a = Method.magnetics ∨ a = .micrometals ∨ a = .poco ∨ a = .tdg) ∧ Has m a) ∨
      ∃ l, m.mass = some l ∧ ∃ v ∈ l, true ∈ v.2

/-! ## Choice of a model (C150) -/

section
variable {D : Type}

theorem mem_methodsOf (m : Material D) (a : Method) : a ∈ methodsOf m ↔ Has m a := by
  unfold methodsOf Has
  constructor
  · intro h
    obtain ⟨v, hv, h⟩ := List.mem_flatMap.mp h
    obtain ⟨e, he, h⟩ := List.mem_filterMap.mp h
    cases e with
    | data b d => simp at h; subst h; exact ⟨v, hv, d, he⟩
    | points => simp at h
  · rintro ⟨v, hv, d, h⟩
    exact List.mem_flatMap.mpr ⟨v, hv, List.mem_filterMap.mpr ⟨_, h, rfl⟩⟩

theorem hasMass_iff (m : Material D) : hasMass m = true ↔ ∃ l, m.mass = some l ∧ ∃ v ∈ l, true ∈ v.2 := by
  unfold hasMass
  cases m.mass with
  | none => simp
  | some l => simp

/-- C150: the models listed for a material are exactly those it has data for. -/
theorem models_exact (m : Material D) (x : Model) : x ∈ models m ↔ Offers m x := by
  have key : ∀ (p : Prop) [Decidable p] (l : List Model), x ∈ (if p then l else []) ↔ p ∧ x ∈ l := by
    intro p _ l; split_ifs with h <;> simp [h]
  unfold models
  simp only [List.mem_append, key, mem_methodsOf, hasMass_iff]
  cases x <;> simp [Offers]

/-- C150: the model used is the first, in the order of preference, the material has data for. -/
theorem chosen_first (order : List Model) (m : Material D) (x : Model) :
    choose order m = .ok x ↔ Offers m x ∧ ∃ before after, order = before ++ x :: after ∧ ∀ y ∈ before, ¬Offers m y := by
  unfold choose
  constructor
  · intro h
    cases hf : order.find? (fun x => decide (x ∈ models m)) with
    | none => rw [hf] at h; simp at h
    | some y =>
      rw [hf] at h
      simp at h
      subst h
      rw [List.find?_eq_some_iff_append] at hf
      obtain ⟨hy, a, b, hab, hn⟩ := hf
      refine ⟨(models_exact m y).mp (by simpa using hy), a, b, hab, ?_⟩
      intro z hz hc
      have := hn z hz
      simp [(models_exact m z).mpr hc] at this
  · rintro ⟨hx, a, b, hab, hn⟩
    have : order.find? (fun x => decide (x ∈ models m)) = some x := by
      rw [List.find?_eq_some_iff_append]
      refine ⟨by simpa using (models_exact m x).mpr hx, a, b, hab, ?_⟩
      intro z hz
      have := hn z hz
      simp [models_exact, this]
    rw [this]

/-- C150: the choice is refused exactly when the material has data for none of them. -/
theorem choice_refused (order : List Model) (m : Material D) :
    choose order m = .throws .modelNotAvailable ↔ ∀ y ∈ order, ¬Offers m y := by
  unfold choose
  cases hf : order.find? (fun x => decide (x ∈ models m)) with
  | none =>
    simp only [true_iff]
    intro y hy hc
    have := List.find?_eq_none.mp hf y hy
    simp [(models_exact m y).mpr hc] at this
  | some y =>
    simp only [reduceCtorEq, false_iff]
    push Not
    exact ⟨y, List.mem_of_find?_eq_some hf, (models_exact m y).mp (by simpa using List.find?_some hf)⟩

/-- C150: whatever the material, there is a choice or a refusal. -/
theorem choice_settled (order : List Model) (m : Material D) :
    (∃ x, choose order m = .ok x) ∨ choose order m = .throws .modelNotAvailable := by
  unfold choose
  cases order.find? (fun x => decide (x ∈ models m)) with
  | none => exact Or.inr rfl
  | some y => exact Or.inl ⟨y, rfl⟩

/-- C150: the preferred model is used whenever the material has data for it. -/
theorem preferred_used (preferred : Model) (m : Material D) (h : Offers m preferred) : choose (preference preferred) m = .ok preferred :=
  (chosen_first _ m preferred).mpr ⟨h, [], _, rfl, by simp⟩

/-- C150: a material with any data of losses known to the library gets some model, whichever is preferred. -/
theorem any_data_served (preferred : Model) (m : Material D)
    (h : (∃ a, Has m a) ∨ ∃ l, m.mass = some l ∧ ∃ v ∈ l, true ∈ v.2) : ∃ x, choose (preference preferred) m = .ok x := by
  rcases choice_settled (preference preferred) m with h' | h'
  · exact h'
  · exfalso
    rw [choice_refused] at h'
    have hp := h' .proprietary (by simp [preference])
    have hl := h' .lossFactor (by simp [preference])
    have hs := h' .steinmetz (by simp [preference])
    have hr := h' .roshen (by simp [preference])
    simp only [Offers] at hp hl hs hr
    rcases h with ⟨a, ha⟩ | h
    · cases a with
      | steinmetz => exact hs ha
      | roshen => exact hr ha
      | lossFactor => exact hl ha
      | magnetics => exact hp (Or.inl ⟨_, by simp, ha⟩)
      | micrometals => exact hp (Or.inl ⟨_, by simp, ha⟩)
      | poco => exact hp (Or.inl ⟨_, by simp, ha⟩)
      | tdg => exact hp (Or.inl ⟨_, by simp, ha⟩)
    · exact hp (Or.inr h)

/-- C150: the natural Steinmetz equation is never used, even when it is preferred. -/
theorem natural_never (order : List Model) (m : Material D) : choose order m ≠ .ok .nse := by
  intro h
  exact ((chosen_first order m .nse).mp h).1

/-- A material with data of Steinmetz and of Micrometals. -/
def bothMaterial : Material Nat := ⟨[(default, [.points, .data .steinmetz 1, .data .micrometals 2])], none⟩

example : Offers bothMaterial .igse := ⟨_, List.mem_singleton.mpr rfl, 1, by simp⟩
example : choose (preference .igse) bothMaterial = .ok .igse ∧ choose (preference .nse) bothMaterial = .ok .proprietary ∧
    choose (preference .roshen) bothMaterial = .ok .proprietary := by decide
example : choose (preference .igse) (⟨[(default, [.points])], none⟩ : Material Nat) = .throws .modelNotAvailable := by decide

/-! ## The data of the model chosen (C150) -/

theorem dataIn_some (a : Method) (l : List (Entry D)) (d : D) (h : dataIn a l = some d) : Entry.data a d ∈ l := by
  induction l with
  | nil => simp [dataIn] at h
  | cons e l ih =>
    cases e with
    | points => exact List.mem_cons_of_mem _ (ih (by simpa [dataIn] using h))
    | data b d' =>
      unfold dataIn at h
      by_cases hb : b = a
      · rw [if_pos hb] at h; simp at h; subst h hb; simp
      · rw [if_neg hb] at h; exact List.mem_cons_of_mem _ (ih h)

theorem dataIn_none (a : Method) (l : List (Entry D)) (h : dataIn a l = none) (d : D) : Entry.data a d ∉ l := by
  induction l with
  | nil => simp
  | cons e l ih =>
    cases e with
    | points => simp; exact ih (by simpa [dataIn] using h)
    | data b d' =>
      unfold dataIn at h
      by_cases hb : b = a
      · rw [if_pos hb] at h; simp at h
      · rw [if_neg hb] at h
        intro hm
        rcases List.mem_cons.mp hm with h' | h'
        · simp at h'; exact hb h'.1.symm
        · exact ih h h'

/-- C150: the data of a method are those of the variant `default`, and it is refused exactly when that variant has none. -/
theorem method_data (m : Material D) (a : Method) :
    (∀ d, methodData m a = .ok d → ∃ v ∈ m.volumetric, v.1 = ['d', 'e', 'f', 'a', 'u', 'l', 't'] ∧ Entry.data a d ∈ v.2) ∧
    (methodData m a = .throws .materialDataMissing ↔
      ∀ v ∈ m.volumetric, v.1 = ['d', 'e', 'f', 'a', 'u', 'l', 't'] → ∀ d, Entry.data a d ∉ v.2) := by
  unfold methodData
  cases hf : (m.volumetric.filter fun v => v.1 = default).findSome? (fun v => dataIn a v.2) with
  | none =>
    simp only [reduceCtorEq, false_imp_iff, implies_true, true_and, true_iff]
    intro v hv hd d
    have := List.findSome?_eq_none_iff.mp hf v (List.mem_filter.mpr ⟨hv, by simp [default, hd]⟩)
    exact dataIn_none a v.2 this d
  | some d =>
    obtain ⟨v, hv, hvd⟩ := List.exists_of_findSome?_eq_some hf
    have hv' := List.mem_filter.mp hv
    have hk : v.1 = ['d', 'e', 'f', 'a', 'u', 'l', 't'] := of_decide_eq_true hv'.2
    simp only [reduceCtorEq, false_iff]
    refine ⟨?_, ?_⟩
    · intro d' h'
      simp at h'
      subst h'
      exact ⟨v, hv'.1, hk, dataIn_some a v.2 d hvd⟩
    · push Not
      exact ⟨v, hv'.1, hk, d, dataIn_some a v.2 d hvd⟩

theorem methodData_of_has (m : Material D) (a : Method)
    (hk : ∀ v ∈ m.volumetric, v.1 = ['d', 'e', 'f', 'a', 'u', 'l', 't']) (h : Has m a) : ∃ d, methodData m a = .ok d := by
  obtain ⟨v, hv, d, hd⟩ := h
  have := (method_data m a).2
  unfold methodData at this ⊢
  cases hf : (m.volumetric.filter fun v => v.1 = default).findSome? (fun v => dataIn a v.2) with
  | none =>
    rw [hf] at this
    exact absurd hd (this.mp rfl v hv (hk v hv) d)
  | some d => exact ⟨d, rfl⟩

theorem proprietaryMethod_some (m : Material D)
    (h : ∃ a, (a = Method.magnetics ∨ a = .micrometals ∨ a = .poco ∨ a = .tdg) ∧ Has m a) :
    ∃ a, proprietaryMethod m = some a ∧ Has m a := by
  obtain ⟨a, ha, hm⟩ := h
  unfold proprietaryMethod
  cases hf : (methodsOf m).find? isProprietary with
  | none =>
    have := List.find?_eq_none.mp hf a ((mem_methodsOf m a).mpr hm)
    rcases ha with rfl | rfl | rfl | rfl <;> simp [isProprietary] at this
  | some b => exact ⟨b, rfl, (mem_methodsOf m b).mp (List.mem_of_find?_eq_some hf)⟩

/-- C150: the model used finds its data in a material whose only variant is `default` and that has data by volume of the
method or only losses by mass. -/
theorem chosen_usable_partial (order : List Model) (m : Material D) (x : Model) (h : choose order m = .ok x)
    (hk : ∀ v ∈ m.volumetric, v.1 = ['d', 'e', 'f', 'a', 'u', 'l', 't'])
    (hp : m.volumetric = [] ∨ m.mass = none) : ∃ s, source x m = .ok s := by
  have ho := ((chosen_first order m x).mp h).1
  have given : ∀ a, Has m a → ∃ s, fromData m a = .ok s := by
    intro a ha
    obtain ⟨d, hd⟩ := methodData_of_has m a hk ha
    exact ⟨.volume a d, by simp [fromData, hd, Res.bind]⟩
  have vol : ∀ a, Has m a → usesVolumetric m = .ok true := by
    rintro a ⟨v, hv, _⟩
    unfold usesVolumetric
    rw [if_pos (by intro h0; rw [List.length_eq_zero_iff] at h0; rw [h0] at hv; simp at hv)]
  cases x with
  | nse => exact absurd ho (by simp [Offers])
  | roshen => exact given _ ho
  | lossFactor => exact given _ ho
  | proprietary =>
    have hasNone : m.volumetric = [] → ∀ a, ¬Has m a := by
      rintro h0 a ⟨v, hv, _⟩
      rw [h0] at hv; simp at hv
    rcases ho with ho | ho
    · obtain ⟨a, ha, hm⟩ := proprietaryMethod_some m ho
      obtain ⟨s, hs⟩ := given a hm
      exact ⟨s, by simp [source, vol a hm, Res.bind, ha, hs]⟩
    · have hmass := (hasMass_iff m).mpr ho
      obtain ⟨l, hl, _⟩ := ho
      rcases hp with h0 | h0
      · exact ⟨.mass, by simp [source, usesVolumetric, h0, hl, Res.bind, hmass]⟩
      · rw [h0] at hl; simp at hl
  | _ =>
    obtain ⟨s, hs⟩ := given _ ho
    exact ⟨s, by simp [source, vol _ ho, Res.bind, hs]⟩

example : choose (preference .igse) bothMaterial = .ok .igse ∧ source .igse bothMaterial = .ok (.volume .steinmetz 1) ∧
    source .proprietary bothMaterial = .ok (.volume .micrometals 2) := by decide

/-- C150 fails: data of a variant other than `default` make their model be chosen, which then refuses to work, although the
material has data of another model. -/
theorem variant_refused : ∃ m : Material Nat, choose (preference .steinmetz) m = .ok .steinmetz ∧
    source .steinmetz m = .throws .materialDataMissing ∧ source .roshen m = .ok (.volume .roshen 1) :=
  ⟨⟨[(default, [.data .roshen 1]), (['h', 'f'], [.data .steinmetz 2])], none⟩, by decide, by decide, by decide⟩

/-- C150 fails: so do the data of a manufacturer, in spite of being looked for in all the variants. -/
theorem variant_proprietary_refused : ∃ m : Material Nat, choose (preference .igse) m = .ok .proprietary ∧
    proprietaryMethod m = some .magnetics ∧ source .proprietary m = .throws .materialDataMissing :=
  ⟨⟨[(['h', 'f'], [.data .magnetics 2])], none⟩, by decide, by decide, by decide⟩

/-- C150 fails: losses by mass make the manufacturers' model be chosen, but points by volume, which it does not use, hide them. -/
theorem mass_hidden : ∃ m : Material Nat, choose (preference .igse) m = .ok .proprietary ∧ hasMass m = true ∧
    source .proprietary m = .throws .materialDataMissing ∧ source .proprietary ({ m with volumetric := [] } : Material Nat) = .ok .mass :=
  ⟨⟨[(default, [.points])], some [(default, [true])]⟩, by decide, by decide, by decide, by decide⟩

end

/-! ## Coefficients by frequency (C151) -/

section
variable {K : Type} [LinearOrder K]

/-- A range with both ends. -/
def Complete (d : Datum K) : Prop := ∃ a b : K, d.lowest = some a ∧ d.highest = some b

/-- A frequency is in a range. -/
def Within (f : K) (d : Datum K) : Prop := ∃ a b : K, d.lowest = some a ∧ d.highest = some b ∧ a ≤ f ∧ f ≤ b

/-- The fold of the lowest end. -/
def lowFold (lo : K × Option (Datum K)) : List (Datum K) → K × Option (Datum K)
  | [] => lo
  | d :: l => lowFold (match d.lowest with | some a => if lo.1 > a then (a, some d) else lo | none => lo) l

/-- The fold of the highest end. -/
def highFold (hi : K × Option (Datum K)) : List (Datum K) → K × Option (Datum K)
  | [] => hi
  | d :: l => highFold (match d.highest with | some b => if hi.1 < b then (b, some d) else hi | none => hi) l

theorem pick_outside (f : K) (l : List (Datum K)) (lo hi : K × Option (Datum K)) (hc : ∀ d ∈ l, Complete d)
    (hw : ∀ d ∈ l, ¬Within f d) : pick f l lo hi = pick f [] (lowFold lo l) (highFold hi l) := by
  induction l generalizing lo hi with
  | nil => rfl
  | cons d l ih =>
    obtain ⟨a, b, ha, hb⟩ := hc d (by simp)
    have hn : ¬(a ≤ f ∧ f ≤ b) := fun h => hw d (by simp) ⟨a, b, ha, hb, h.1, h.2⟩
    conv_lhs => rw [pick]
    simp only [ha, hb]
    rw [if_neg hn]
    rw [ih _ _ (fun d hd => hc d (by simp [hd])) (fun d hd => hw d (by simp [hd]))]
    simp only [lowFold, highFold, ha, hb]

theorem pick_first (f : K) (before : List (Datum K)) (d : Datum K) (after : List (Datum K)) (lo hi : K × Option (Datum K))
    (hc : ∀ x ∈ before, Complete x) (hn : ∀ x ∈ before, ¬Within f x) (hd : Within f d) :
    pick f (before ++ d :: after) lo hi = .ok d := by
  induction before generalizing lo hi with
  | nil =>
    obtain ⟨a, b, ha, hb, h⟩ := hd
    simp [pick, ha, hb, h]
  | cons x before ih =>
    obtain ⟨a, b, ha, hb⟩ := hc x (by simp)
    have hn' : ¬(a ≤ f ∧ f ≤ b) := fun h => hn x (by simp) ⟨a, b, ha, hb, h.1, h.2⟩
    simp only [List.cons_append]
    rw [pick]
    simp only [ha, hb]
    rw [if_neg hn']
    exact ih _ _ (fun y hy => hc y (by simp [hy])) (fun y hy => hn y (by simp [hy]))

/-- What is known of the lowest end of a list: it is that of one of its ranges, or the start, and below all. -/
theorem lowFold_spec (lo : K × Option (Datum K)) (l : List (Datum K)) (hc : ∀ d ∈ l, Complete d)
    (hl : ∀ d, lo.2 = some d → d.lowest = some lo.1) :
    (∀ d, (lowFold lo l).2 = some d → d.lowest = some (lowFold lo l).1) ∧
    ((lowFold lo l) = lo ∨ ∃ d ∈ l, (lowFold lo l).2 = some d) ∧ (lowFold lo l).1 ≤ lo.1 ∧
    (∀ d ∈ l, ∀ a, d.lowest = some a → (lowFold lo l).1 ≤ a) ∧
    ((lowFold lo l) = lo ↔ ∀ d ∈ l, ∀ a, d.lowest = some a → lo.1 ≤ a) := by
  induction l generalizing lo with
  | nil => simp [lowFold]; exact hl
  | cons d l ih =>
    obtain ⟨a, b, ha, hb⟩ := hc d (by simp)
    simp only [lowFold, ha]
    by_cases h : lo.1 > a
    · rw [if_pos h]
      have := ih (a, some d) (fun d hd => hc d (by simp [hd])) (by intro d' hd'; simp at hd'; subst hd'; simpa using ha)
      obtain ⟨h1, h2, h3, h4, h5⟩ := this
      refine ⟨h1, ?_, le_trans h3 h.le, ?_, ?_⟩
      · right
        rcases h2 with h2 | ⟨d', hd', h2⟩
        · exact ⟨d, by simp, by rw [h2]⟩
        · exact ⟨d', by simp [hd'], h2⟩
      · intro d' hd' a' ha'
        rcases List.mem_cons.mp hd' with rfl | hd'
        · rw [ha] at ha'; simp at ha'; subst ha'; exact h3
        · exact h4 d' hd' a' ha'
      · constructor
        · intro he
          rw [he] at h3
          exact absurd h3 (not_le.mpr h)
        · intro hall
          exact absurd (hall d (by simp) a ha) (not_le.mpr h)
    · rw [if_neg h]
      obtain ⟨h1, h2, h3, h4, h5⟩ := ih lo (fun d hd => hc d (by simp [hd])) hl
      refine ⟨h1, ?_, h3, ?_, ?_⟩
      · rcases h2 with h2 | ⟨d', hd', h2⟩
        · exact Or.inl h2
        · exact Or.inr ⟨d', by simp [hd'], h2⟩
      · intro d' hd' a' ha'
        rcases List.mem_cons.mp hd' with rfl | hd'
        · rw [ha] at ha'; simp at ha'; subst ha'; exact le_trans h3 (not_lt.mp h)
        · exact h4 d' hd' a' ha'
      · rw [h5]
        constructor
        · intro hall d' hd' a' ha'
          rcases List.mem_cons.mp hd' with rfl | hd'
          · rw [ha] at ha'; simp at ha'; subst ha'; exact not_lt.mp h
          · exact hall d' hd' a' ha'
        · intro hall d' hd' a' ha'
          exact hall d' (by simp [hd']) a' ha'

theorem highFold_spec (hi : K × Option (Datum K)) (l : List (Datum K)) (hc : ∀ d ∈ l, Complete d)
    (hl : ∀ d, hi.2 = some d → d.highest = some hi.1) :
    (∀ d, (highFold hi l).2 = some d → d.highest = some (highFold hi l).1) ∧
    ((highFold hi l) = hi ∨ ∃ d ∈ l, (highFold hi l).2 = some d) ∧ hi.1 ≤ (highFold hi l).1 ∧
    (∀ d ∈ l, ∀ a, d.highest = some a → a ≤ (highFold hi l).1) ∧
    ((highFold hi l) = hi ↔ ∀ d ∈ l, ∀ a, d.highest = some a → a ≤ hi.1) := by
  induction l generalizing hi with
  | nil => simp [highFold]; exact hl
  | cons d l ih =>
    obtain ⟨b, a, hb, ha⟩ := hc d (by simp)
    simp only [highFold, ha]
    by_cases h : hi.1 < a
    · rw [if_pos h]
      have := ih (a, some d) (fun d hd => hc d (by simp [hd])) (by intro d' hd'; simp at hd'; subst hd'; simpa using ha)
      obtain ⟨h1, h2, h3, h4, h5⟩ := this
      refine ⟨h1, ?_, le_trans h.le h3, ?_, ?_⟩
      · right
        rcases h2 with h2 | ⟨d', hd', h2⟩
        · exact ⟨d, by simp, by rw [h2]⟩
        · exact ⟨d', by simp [hd'], h2⟩
      · intro d' hd' a' ha'
        rcases List.mem_cons.mp hd' with rfl | hd'
        · rw [ha] at ha'; simp at ha'; subst ha'; exact h3
        · exact h4 d' hd' a' ha'
      · constructor
        · intro he
          rw [he] at h3
          exact absurd h3 (not_le.mpr h)
        · intro hall
          exact absurd (hall d (by simp) a ha) (not_le.mpr h)
    · rw [if_neg h]
      obtain ⟨h1, h2, h3, h4, h5⟩ := ih hi (fun d hd => hc d (by simp [hd])) hl
      refine ⟨h1, ?_, h3, ?_, ?_⟩
      · rcases h2 with h2 | ⟨d', hd', h2⟩
        · exact Or.inl h2
        · exact Or.inr ⟨d', by simp [hd'], h2⟩
      · intro d' hd' a' ha'
        rcases List.mem_cons.mp hd' with rfl | hd'
        · rw [ha] at ha'; simp at ha'; subst ha'; exact le_trans (not_lt.mp h) h3
        · exact h4 d' hd' a' ha'
      · rw [h5]
        constructor
        · intro hall d' hd' a' ha'
          rcases List.mem_cons.mp hd' with rfl | hd'
          · rw [ha] at ha'; simp at ha'; subst ha'; exact not_lt.mp h
          · exact hall d' hd' a' ha'
        · intro hall d' hd' a' ha'
          exact hall d' (by simp [hd']) a' ha'

/-- C151: the coefficients of a frequency are those of the first range that contains it, whatever comes after. -/
theorem range_of_frequency (top zero f : K) (before after : List (Datum K)) (d : Datum K) (hc : ∀ x ∈ before, Complete x)
    (hn : ∀ x ∈ before, ¬Within f x) (hd : Within f d) : coefficients top zero (before ++ d :: after) f = .ok d :=
  pick_first f before d after _ _ hc hn hd

/-- C151: a range without one of its ends, found before one that contains the frequency, is refused. -/
theorem missing_end_refused (top zero f : K) (before after : List (Datum K)) (d : Datum K) (hc : ∀ x ∈ before, Complete x)
    (hn : ∀ x ∈ before, ¬Within f x) (hd : ¬Complete d) :
    coefficients top zero (before ++ d :: after) f = .throws .materialDataMissing := by
  unfold coefficients
  generalize (top, (none : Option (Datum K))) = lo
  generalize (zero, (none : Option (Datum K))) = hi
  induction before generalizing lo hi with
  | nil =>
    simp only [List.nil_append]
    rw [pick]
    cases h1 : d.lowest with
    | none => rfl
    | some a =>
      cases h2 : d.highest with
      | none => rfl
      | some b => exact absurd ⟨a, b, h1, h2⟩ hd
  | cons x before ih =>
    obtain ⟨a, b, ha, hb⟩ := hc x (by simp)
    have hn' : ¬(a ≤ f ∧ f ≤ b) := fun h => hn x (by simp) ⟨a, b, ha, hb, h.1, h.2⟩
    simp only [List.cons_append]
    rw [pick]
    simp only [ha, hb]
    rw [if_neg hn']
    exact ih (fun y hy => hc y (by simp [hy])) (fun y hy => hn y (by simp [hy])) _ _

/-- C151: below all the ranges, the one that starts lowest is used, provided some starts below 100 MHz. -/
theorem below_all (top zero f : K) (ranges : List (Datum K)) (hc : ∀ d ∈ ranges, Complete d)
    (hb : ∀ d ∈ ranges, ∀ a, d.lowest = some a → f < a) (hs : ∃ d ∈ ranges, ∃ a, d.lowest = some a ∧ a < top) :
    ∃ d ∈ ranges, coefficients top zero ranges f = .ok d ∧
      ∃ a, d.lowest = some a ∧ ∀ d' ∈ ranges, ∀ a', d'.lowest = some a' → a ≤ a' := by
  have hw : ∀ d ∈ ranges, ¬Within f d := by
    rintro d hd ⟨a, _, ha, _, h, _⟩
    exact absurd h (not_le.mpr (hb d hd a ha))
  unfold coefficients
  rw [pick_outside f ranges _ _ hc hw]
  obtain ⟨h1, h2, h3, h4, h5⟩ := lowFold_spec (top, none) ranges hc (by simp)
  rcases h2 with h2 | ⟨d, hd, h2⟩
  · obtain ⟨d, hd, a, ha, hlt⟩ := hs
    exact absurd (h5.mp h2 d hd a ha) (not_le.mpr hlt)
  · refine ⟨d, hd, ?_, (lowFold (top, none) ranges).1, h1 d h2, h4⟩
    have hf : f < (lowFold (top, none) ranges).1 := hb d hd _ (h1 d h2)
    unfold pick
    rw [h2]
    cases (highFold (zero, none) ranges).2 <;> simp [hf]

/-- C151: above all the ranges, the one that ends highest is used, provided some ends above zero. -/
theorem above_all (top zero f : K) (ranges : List (Datum K)) (hc : ∀ d ∈ ranges, Complete d)
    (hb : ∀ d ∈ ranges, ∀ a b, d.lowest = some a → d.highest = some b → a ≤ b ∧ b < f)
    (hs : ∃ d ∈ ranges, ∃ b, d.highest = some b ∧ zero < b) :
    ∃ d ∈ ranges, coefficients top zero ranges f = .ok d ∧
      ∃ b, d.highest = some b ∧ ∀ d' ∈ ranges, ∀ b', d'.highest = some b' → b' ≤ b := by
  have hw : ∀ d ∈ ranges, ¬Within f d := by
    rintro d hd ⟨a, b, ha, hb', _, h⟩
    exact absurd h (not_le.mpr (hb d hd a b ha hb').2)
  unfold coefficients
  rw [pick_outside f ranges _ _ hc hw]
  obtain ⟨h1, h2, h3, h4, h5⟩ := highFold_spec (zero, none) ranges hc (by simp)
  obtain ⟨g1, g2, g3, g4, g5⟩ := lowFold_spec (top, none) ranges hc (by simp)
  rcases h2 with h2 | ⟨d, hd, h2⟩
  · obtain ⟨d, hd, b, hb', hlt⟩ := hs
    exact absurd (h5.mp h2 d hd b hb') (not_le.mpr hlt)
  · refine ⟨d, hd, ?_, (highFold (zero, none) ranges).1, h1 d h2, h4⟩
    have hf : (highFold (zero, none) ranges).1 < f := by
      obtain ⟨a, b, ha, hb'⟩ := hc d hd
      exact (hb d hd a _ ha (h1 d h2)).2
    unfold pick
    rw [h2]
    cases hg : (lowFold (top, none) ranges).2 with
    | none => simp [hf]
    | some d' =>
      have hm : d' ∈ ranges := by
        rcases g2 with g2 | ⟨d'', hd'', g2⟩
        · rw [g2] at hg; simp at hg
        · rw [g2] at hg; simp at hg; subst hg; exact hd''
      obtain ⟨a, b, ha, hb'⟩ := hc d' hm
      have h6 := g1 d' hg
      have h7 := hb d' hm _ b h6 hb'
      have : ¬f < (lowFold (top, none) ranges).1 := not_lt.mpr (le_trans h7.1 h7.2.le)
      simp [this, hf]

/-- C151: a frequency in no range, but above the start of one and below the end of another, is refused. -/
theorem hole_refused (top zero f : K) (ranges : List (Datum K)) (hc : ∀ d ∈ ranges, Complete d) (hw : ∀ d ∈ ranges, ¬Within f d)
    (hl : ∃ d ∈ ranges, ∃ a, d.lowest = some a ∧ a ≤ f) (hh : ∃ d ∈ ranges, ∃ b, d.highest = some b ∧ f ≤ b) :
    coefficients top zero ranges f = .throws .calculationInvalidInput := by
  unfold coefficients
  rw [pick_outside f ranges _ _ hc hw]
  obtain ⟨d, hd, a, ha, hal⟩ := hl
  obtain ⟨d', hd', b, hb, hbl⟩ := hh
  have g := (lowFold_spec (top, none) ranges hc (by simp)).2.2.2.1 d hd a ha
  have k := (highFold_spec (zero, none) ranges hc (by simp)).2.2.2.1 d' hd' b hb
  have h1 : ¬f < (lowFold (top, none) ranges).1 := not_lt.mpr (le_trans g hal)
  have h2 : ¬(highFold (zero, none) ranges).1 < f := not_lt.mpr (le_trans hbl k)
  unfold pick
  cases (lowFold (top, none) ranges).2 <;> cases (highFold (zero, none) ranges).2 <;> simp [h1, h2]

/-- C151: the coefficients are always those of a range of the material. -/
theorem coefficients_of_material (top zero f : K) (ranges : List (Datum K)) (d : Datum K)
    (h : coefficients top zero ranges f = .ok d) : d ∈ ranges := by
  have : ∀ (l : List (Datum K)) (lo hi : K × Option (Datum K)), pick f l lo hi = .ok d →
      d ∈ l ∨ lo.2 = some d ∨ hi.2 = some d := by
    intro l
    induction l with
    | nil =>
      intro lo hi h
      unfold pick at h
      right
      cases h1 : lo.2 <;> cases h2 : hi.2 <;> rw [h1, h2] at h <;> simp only [] at h
      · simp at h
      · split_ifs at h with h3
        · right; simpa using h
      · split_ifs at h with h3
        · left; simpa using h
      · split_ifs at h with h3 h4
        · left; simpa using h
        · right; simpa using h
    | cons x l ih =>
      intro lo hi h
      unfold pick at h
      cases h1 : x.lowest <;> cases h2 : x.highest <;> rw [h1, h2] at h <;> simp only [] at h
      · simp at h
      · simp at h
      · simp at h
      · split_ifs at h with h3 h4 h5 h5
        · left; simp at h; simp [h]
        · rcases ih _ _ h with h | h | h
          · simp [h]
          · simp at h; simp [h]
          · simp at h; simp [h]
        · rcases ih _ _ h with h | h | h
          · simp [h]
          · simp at h; simp [h]
          · simp [h]
        · rcases ih _ _ h with h | h | h
          · simp [h]
          · simp [h]
          · simp at h; simp [h]
        · rcases ih _ _ h with h | h | h <;> simp [h]
  rcases this ranges _ _ h with h | h | h
  · exact h
  · simp at h
  · simp at h

/-- Ranges one after the other: each starts where the one before ends. -/
def Contiguous : List (Datum K) → Prop
  | [] => True
  | [d] => ∃ a b, d.lowest = some a ∧ d.highest = some b ∧ a ≤ b
  | d :: e :: l => (∃ a b c, d.lowest = some a ∧ d.highest = some b ∧ e.lowest = some c ∧ a ≤ b ∧ c = b) ∧ Contiguous (e :: l)

theorem contiguous_complete (l : List (Datum K)) (h : Contiguous l) : ∀ d ∈ l, Complete d := by
  induction l with
  | nil => simp
  | cons d l ih =>
    cases l with
    | nil =>
      obtain ⟨a, b, ha, hb, _⟩ := h
      intro x hx; simp at hx; subst hx; exact ⟨a, b, ha, hb⟩
    | cons e l =>
      obtain ⟨⟨a, b, c, ha, hb, _⟩, h⟩ := h
      intro x hx
      rcases List.mem_cons.mp hx with rfl | hx
      · exact ⟨a, b, ha, hb⟩
      · exact ih h x hx

theorem contiguous_covers (d : Datum K) (l : List (Datum K)) (h : Contiguous (d :: l)) (f : K) :
    (∃ a, d.lowest = some a ∧ f < a ∧ ∀ x ∈ d :: l, ∀ b, x.lowest = some b → a ≤ b) ∨ (∃ x ∈ d :: l, Within f x) ∨
    ∀ x ∈ d :: l, ∀ a b, x.lowest = some a → x.highest = some b → a ≤ b ∧ b < f := by
  induction l generalizing d with
  | nil =>
    obtain ⟨a, b, ha, hb, hab⟩ := h
    rcases lt_or_ge f a with h1 | h1
    · left; exact ⟨a, ha, h1, by intro x hx c hc; simp at hx; subst hx; rw [ha] at hc; simp at hc; exact hc.le⟩
    · rcases le_or_gt f b with h2 | h2
      · right; left; exact ⟨d, by simp, a, b, ha, hb, h1, h2⟩
      · right; right
        intro x hx a' b' ha' hb'
        simp at hx; subst hx
        rw [ha] at ha'; rw [hb] at hb'
        simp at ha' hb'; subst ha' hb'; exact ⟨hab, h2⟩
  | cons e l ih =>
    obtain ⟨⟨a, b, c, ha, hb, hc, hab, rfl⟩, h⟩ := h
    rcases lt_or_ge f a with h1 | h1
    · left
      refine ⟨a, ha, h1, ?_⟩
      intro x hx a' ha'
      rcases List.mem_cons.mp hx with rfl | hx
      · rw [ha] at ha'; simp at ha'; exact ha'.le
      · -- the starts grow
        have grow : ∀ (l : List (Datum K)) (e : Datum K) (s : K), Contiguous (e :: l) → e.lowest = some s →
            ∀ x ∈ e :: l, ∀ t, x.lowest = some t → s ≤ t := by
          intro l
          induction l with
          | nil =>
            intro e s _ hs x hx t ht
            simp at hx; subst hx; rw [hs] at ht; simp at ht; exact ht.le
          | cons g l ih =>
            intro e s hcon hs x hx t ht
            obtain ⟨⟨a, b, c, ha, hb, hc, hab, rfl⟩, hcon⟩ := hcon
            rw [hs] at ha; simp at ha; subst ha
            rcases List.mem_cons.mp hx with rfl | hx
            · rw [hs] at ht; simp at ht; exact ht.le
            · exact le_trans hab (ih g _ hcon hc x hx t ht)
        exact le_trans hab (grow l e c h hc x hx a' ha')
    · rcases le_or_gt f c with h2 | h2
      · right; left; exact ⟨d, by simp, a, c, ha, hb, h1, h2⟩
      · rcases ih e h with ⟨a', ha', hlt, _⟩ | ⟨x, hx, hw⟩ | h3
        · rw [hc] at ha'; simp at ha'; subst ha'
          exact absurd hlt (not_lt.mpr h2.le)
        · right; left; exact ⟨x, by simp [hx], hw⟩
        · right; right
          intro x hx a' b' ha' hb'
          rcases List.mem_cons.mp hx with rfl | hx
          · rw [ha] at ha'; rw [hb] at hb'; simp at ha' hb'; subst ha' hb'; exact ⟨hab, h2⟩
          · exact h3 x hx a' b' ha' hb'

/-- C151: ranges that follow one another without holes, the first starting below 100 MHz and the last ending above zero, give
coefficients at every frequency. -/
theorem contiguous_served (top zero f : K) (d : Datum K) (l : List (Datum K)) (h : Contiguous (d :: l))
    (hs : ∃ a, d.lowest = some a ∧ a < top) (he : ∃ x ∈ d :: l, ∃ b, x.highest = some b ∧ zero < b) :
    ∃ x ∈ d :: l, coefficients top zero (d :: l) f = .ok x := by
  have hc := contiguous_complete _ h
  rcases contiguous_covers d l h f with ⟨a, ha, hlt, hall⟩ | ⟨x, hx, hw⟩ | hall
  · obtain ⟨s, hs, hst⟩ := hs
    obtain ⟨y, hy, h', _⟩ := below_all top zero f (d :: l) hc (fun x hx b hb => lt_of_lt_of_le hlt (hall x hx b hb))
      ⟨d, by simp, s, hs, hst⟩
    exact ⟨y, hy, h'⟩
  · classical
    have hne : ((d :: l).find? fun x => decide (Within f x)).isSome := by
      rw [List.find?_isSome]; exact ⟨x, hx, by simpa using hw⟩
    obtain ⟨y, hy⟩ := Option.isSome_iff_exists.mp hne
    obtain ⟨hy1, a, b, hab, hn⟩ := List.find?_eq_some_iff_append.mp hy
    refine ⟨y, List.mem_of_find?_eq_some hy, ?_⟩
    rw [hab]
    refine range_of_frequency top zero f a b y ?_ ?_ (by simpa using hy1)
    · intro z hz; exact hc z (by rw [hab]; simp [hz])
    · intro z hz; simpa using hn z hz
  · obtain ⟨y, hy, h', _⟩ := above_all top zero f (d :: l) hc hall he
    exact ⟨y, hy, h'⟩

/-- Coefficients between two frequencies. -/
def rangeOf (a b : ℚ) : Datum ℚ := ⟨1, 1, 2, none, none, none, some a, some b⟩

example : Contiguous [rangeOf 1000 100000, rangeOf 100000 500000] :=
  ⟨⟨_, _, _, rfl, rfl, rfl, by decide +kernel, rfl⟩, _, _, rfl, rfl, by decide +kernel⟩
example : coefficients 100000000 0 [rangeOf 1000 100000, rangeOf 100000 500000] 100000 = .ok (rangeOf 1000 100000) ∧
    coefficients 100000000 0 [rangeOf 1000 100000, rangeOf 100000 500000] 10 = .ok (rangeOf 1000 100000) ∧
    coefficients 100000000 0 [rangeOf 1000 100000, rangeOf 100000 500000] 600000 = .ok (rangeOf 100000 500000) := by decide +kernel

/-- C151 fails: ranges with a hole between them refuse the frequencies in it, though those below and above all are served. -/
theorem hole_witness : coefficients 100000000 0 [rangeOf 1000 100000, rangeOf 200000 500000] 150000 = .throws .calculationInvalidInput ∧
    (∃ d, coefficients 100000000 0 [rangeOf 1000 100000, rangeOf 200000 500000] 1 = .ok d) ∧
    ∃ d, coefficients 100000000 0 [rangeOf 1000 100000, rangeOf 200000 500000] 900000 = .ok d :=
  ⟨by decide +kernel, ⟨_, rfl⟩, ⟨_, rfl⟩⟩

/-- C151 fails: below a range that starts at 100 MHz nothing is served. -/
theorem radio_witness : coefficients 100000000 0 [rangeOf 100000000 1000000000] 50000000 = .throws .calculationInvalidInput := by
  decide +kernel

end

end Verif.CoreLosses
