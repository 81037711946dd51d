import Verif.Settings.Lemmas
import Mathlib.Tactic.Linarith
import Mathlib.Tactic.NormNum
import Mathlib.Algebra.Order.Field.Basic

/-! # Properties C21 and C22: settings -/

namespace Verif.Settings

/-! ## C21 -/

/-- **C21**: `Settings::reset()` brings every member but `_debug` back to its value after construction, from
any state, also when it throws because the catalogues are frozen. -/
theorem reset_restores (frozen : Bool) (s : State) (f : Field) (h : f ≠ .debug) :
    (resetCall frozen s).1 f = initial f := by
  rw [resetCall_eq]
  have : resetValue f = some (initial f) := by
    cases f <;> first | rfl | exact absurd rfl h
  rw [this]; rfl

/-- **C21**: what the getters show after a reset is what they show after construction. -/
theorem reset_getters (frozen : Bool) (s : State) (a : Accessor) :
    (resetCall frozen s).1 (getterField a) = initial (getterField a) := by
  apply reset_restores
  cases a <;> decide

/-- Disagreement with **C21**: the public member `_debug` survives a reset. -/
theorem reset_keeps_debug (frozen : Bool) (s : State) : (resetCall frozen s).1 .debug = s .debug := rfl

/-- **C21**: `reset()` throws exactly when the catalogues are frozen and a catalogue flag was changed (and
then, by `reset_restores`, all settings are already back). -/
theorem reset_throws_iff (frozen : Bool) (s : State) :
    (resetCall frozen s).2 = true ↔ frozen = true ∧
      ¬(s .useToroidalCores = true ∧ s .useConcentricCores = true ∧ s .useOnlyCoresInStock = true) := by
  have h1 := reset_restores frozen s .useToroidalCores (by decide)
  have h2 := reset_restores frozen s .useConcentricCores (by decide)
  have h3 := reset_restores frozen s .useOnlyCoresInStock (by decide)
  rw [resetCall_eq] at h1 h2 h3
  simp only [resetCall, h1, h2, h3]
  show ((bne (α := Bool) (s .useToroidalCores) true || bne (α := Bool) (s .useConcentricCores) true ||
    bne (α := Bool) (s .useOnlyCoresInStock) true) && frozen) = true ↔ _
  generalize (s .useToroidalCores : Bool) = x
  generalize (s .useConcentricCores : Bool) = y
  generalize (s .useOnlyCoresInStock : Bool) = z
  cases x <;> cases y <;> cases z <;> cases frozen <;> simp <;> exact ⟨rfl, rfl, rfl⟩

/-- **C21**: an accepted setter call is seen by its own getter, and by no other getter. -/
theorem set_get (a : Accessor) (v : Den (ty (setterField a))) (s : State) (h : (setAcc a v s).2 = false) :
    (setAcc a v s).1 (setterField a) = v ∧ getterField a = setterField a ∧
    ∀ b, b ≠ a → (setAcc a v s).1 (getterField b) = s (getterField b) := by
  have hr : rejects a v = false := by
    cases hc : rejects a v with
    | false => rfl
    | true => rw [setAcc, if_pos hc] at h; cases h
  refine ⟨?_, accessor_pairs a, ?_⟩
  · simp [setAcc, hr, upd_same]
  · intro b hb
    have hne : getterField b ≠ setterField a := by
      rw [accessor_pairs b]; exact fun h => hb (setterField_injective h)
    show (if rejects a v then (s, true) else (upd s (setterField a) v, false)).1 (getterField b) = _
    simp only [hr, Bool.false_eq_true, if_false]
    exact upd_other _ _ _ _ hne

/-- **C21**: a guard gives its setting back, whatever its body does (other guards, also on the same setting,
setter calls on the same setting, resets, exceptions caught or not), whether the block ends normally or by an
exception. -/
theorem guard_restores (frozen : Bool) (a : Accessor) (v : Den (ty (setterField a))) (p : Prog) (s s' : State)
    (h : (exec frozen (.guard a v p) s).state = some s') : s' (getterField a) = s (getterField a) := by
  rw [accessor_pairs a]
  simp only [exec, previous_eq] at h
  have key : ∀ (k : State → Res), (∀ t, (k t).state = some t) → ∀ s1,
      (restore a (s (setterField a)) s1 k).state = some s' → s' (setterField a) = s (setterField a) := by
    intro k hk s1 hs
    unfold restore at hs
    simp only at hs
    by_cases hr : rejects a (s (setterField a)) = true
    · simp only [setAcc, hr, if_true] at hs; cases hs
    · have hr' : rejects a (s (setterField a)) = false := by simpa using hr
      simp only [setAcc, hr', Bool.false_eq_true, if_false, hk] at hs
      cases hs
      exact upd_same _ _ _
  by_cases hr : (setAcc a v s).2 = true
  · rw [if_pos hr] at h
    have : (setAcc a v s).1 = s := by
      by_cases hj : rejects a v = true
      · simp [setAcc, hj]
      · simp [setAcc, hj] at hr
    rw [this] at h; cases h; rfl
  · rw [if_neg hr] at h
    cases hx : exec frozen p (setAcc a v s).1 with
    | done s1 => rw [hx] at h; exact key .done (fun _ => rfl) s1 h
    | thrown s1 => rw [hx] at h; exact key .thrown (fun _ => rfl) s1 h
    | terminated => rw [hx] at h; cases h

/-- Specification: the members a program may leave changed. A guard takes its own member off the list. -/
def Writes : Prog → Field → Prop
  | .call (.set a _), f => f = setterField a
  | .call (.setPreferredLossModel _), f => f = .coreLossesModelNames
  | .call (.setCciPath _), f => f = .painterCciCoordinatesPath
  | .call (.setDebug _), f => f = .debug
  | .call .reset, _ => True
  | .other _, _ => False
  | .seq p q, f => Writes p f ∨ Writes q f
  | .tryCatch p q, f => Writes p f ∨ Writes q f
  | .guard a _ p, f => Writes p f ∧ f ≠ getterField a

/-- **C21**: a program changes no member outside `Writes`, whichever way it ends. -/
theorem exec_frame (frozen : Bool) (p : Prog) : ∀ (s s' : State), (exec frozen p s).state = some s' →
    ∀ f, ¬ Writes p f → s' f = s f := by
  induction p with
  | call c =>
    intro s s' h f hf
    have hs : s' = (call frozen c s).1 := by
      simp only [exec] at h
      split at h <;> (cases h; rfl)
    subst hs
    cases c with
    | set a v =>
      show (setAcc a v s).1 f = _
      unfold setAcc; split
      · rfl
      · exact upd_other _ _ _ _ hf
    | setPreferredLossModel m => exact upd_other _ _ _ _ hf
    | setCciPath q => exact upd_other _ _ _ _ hf
    | setDebug b => exact upd_other _ _ _ _ hf
    | reset => exact absurd trivial hf
  | other t =>
    intro s s' h f _
    simp only [exec] at h
    split at h <;> (cases h; rfl)
  | seq p q ihp ihq =>
    intro s s' h f hf
    have hp : ¬ Writes p f := fun x => hf (Or.inl x)
    have hq : ¬ Writes q f := fun x => hf (Or.inr x)
    simp only [exec] at h
    cases hr : exec frozen p s with
    | done s1 =>
      rw [hr] at h
      exact (ihq s1 s' h f hq).trans (ihp s s1 (by rw [hr]; rfl) f hp)
    | thrown s1 => rw [hr] at h; cases h; exact ihp s s' (by rw [hr]; rfl) f hp
    | terminated => rw [hr] at h; cases h
  | tryCatch p q ihp ihq =>
    intro s s' h f hf
    have hp : ¬ Writes p f := fun x => hf (Or.inl x)
    have hq : ¬ Writes q f := fun x => hf (Or.inr x)
    simp only [exec] at h
    cases hr : exec frozen p s with
    | thrown s1 =>
      rw [hr] at h
      exact (ihq s1 s' h f hq).trans (ihp s s1 (by rw [hr]; rfl) f hp)
    | done s1 => rw [hr] at h; cases h; exact ihp s s' (by rw [hr]; rfl) f hp
    | terminated => rw [hr] at h; cases h
  | guard a v p ih =>
    intro s s' h f hf
    by_cases hfa : f = getterField a
    · subst hfa; exact guard_restores frozen a v p s s' h
    · have hp : ¬ Writes p f := fun x => hf ⟨x, hfa⟩
      have hne : f ≠ setterField a := by rw [← accessor_pairs a]; exact hfa
      have hset : ∀ (w : Den (ty (setterField a))) t, (setAcc a w t).1 f = t f := by
        intro w t; unfold setAcc; split
        · rfl
        · exact upd_other _ _ _ _ hne
      simp only [exec] at h
      split at h
      · cases h; exact hset v s
      · have key : ∀ (k : State → Res), (∀ t, (k t).state = some t) → ∀ prev s1, s1 f = s f →
            (restore a prev s1 k).state = some s' → s' f = s f := by
          intro k hk prev s1 h1 hs
          unfold restore at hs
          simp only at hs
          split at hs
          · cases hs
          · rw [hk] at hs; cases hs; rw [hset]; exact h1
        cases hx : exec frozen p (setAcc a v s).1 with
        | done s1 =>
          rw [hx] at h
          exact key .done (fun _ => rfl) _ s1 ((ih _ _ (by rw [hx]; rfl) f hp).trans (hset v s)) h
        | thrown s1 =>
          rw [hx] at h
          exact key .thrown (fun _ => rfl) _ s1 ((ih _ _ (by rw [hx]; rfl) f hp).trans (hset v s)) h
        | terminated => rw [hx] at h; cases h

/-- **C21**: a program that writes settings only under guards of theirs leaves no trace. -/
theorem guarded_leaves_no_trace (frozen : Bool) (p : Prog) (hp : ∀ f, ¬ Writes p f) (s s' : State)
    (h : (exec frozen p s).state = some s') : s' = s :=
  funext fun f => exec_frame frozen p s s' h f (hp f)

/-- The shape of the retry of src/advisers/CoreAdviserPipeline.cpp:465: a guard, a nested one on another
setting, and an exception in the middle. -/
example : ∀ f, ¬ Writes (.guard .coreAdviserSaturationMargin (.fin 1)
    (.seq (.guard .coilDelimitAndCompact false (.other true)) (.call (.set .coreAdviserSaturationMargin (.fin 2)))))
    f := by
  rintro f ⟨⟨h, _⟩ | h, h2⟩
  · exact h
  · exact h2 h

/-- **C21**: from the state after construction no program can end the process through a throwing guard
destructor. -/
theorem guards_never_terminate (frozen : Bool) (p q : Prog) (s : State)
    (h : (exec frozen p initial).state = some s) : ∃ s', (exec frozen q s).state = some s' := by
  obtain ⟨s1, e1, h1⟩ := exec_ok frozen p initial ok_initial
  rw [e1] at h
  have hs : s1 = s := Option.some.inj h
  subst hs
  obtain ⟨s2, e2, _⟩ := exec_ok frozen q s1 h1
  exact ⟨s2, e2⟩

/-! ## C22 -/

/-- Specification: a double that is at least `x` (NaN is not). -/
def AtLeast (x : ℚ) : Dbl → Prop
  | .fin y => x ≤ y
  | .pinf => True
  | _ => False

theorem atLeast_iff (x : ℚ) (v : Dbl) : AtLeast x v ↔ v ≠ .nan ∧ Scoring.Num.ltB v (.fin x) = false := by
  cases v <;> simp [AtLeast, Scoring.Num.ltB]

/-- Specification: the program passes no NaN to the two checked setters. -/
def NoNan : Prog → Prop
  | .call (.set .coreAdviserSaturationMargin v) => v ≠ Scoring.Num.nan
  | .call (.set .coreAdviserSaturationDeratingTemperature v) => v ≠ Scoring.Num.nan
  | .call _ => True
  | .other _ => True
  | .seq p q => NoNan p ∧ NoNan q
  | .tryCatch p q => NoNan p ∧ NoNan q
  | .guard .coreAdviserSaturationMargin v p => v ≠ Scoring.Num.nan ∧ NoNan p
  | .guard .coreAdviserSaturationDeratingTemperature v p => v ≠ Scoring.Num.nan ∧ NoNan p
  | .guard _ _ p => NoNan p

/-- The two checked settings are not NaN. -/
def Clean (s : State) : Prop :=
  s .coreAdviserSaturationMargin ≠ Scoring.Num.nan ∧
  s .coreAdviserSaturationDeratingTemperature ≠ Scoring.Num.nan

/-- The value handed to the setter of a checked setting is not NaN. -/
def CleanArg : (a : Accessor) → Den (ty (setterField a)) → Prop
  | .coreAdviserSaturationMargin, v => v ≠ Scoring.Num.nan
  | .coreAdviserSaturationDeratingTemperature, v => v ≠ Scoring.Num.nan
  | _, _ => True

theorem noNan_set (a : Accessor) (v : Den (ty (setterField a))) (h : NoNan (.call (.set a v))) :
    CleanArg a v := by
  cases a <;> first | trivial | exact h

theorem noNan_guard (a : Accessor) (v : Den (ty (setterField a))) (p : Prog) (h : NoNan (.guard a v p)) :
    CleanArg a v ∧ NoNan p := by
  cases a <;> first | exact h | exact ⟨trivial, h⟩

theorem clean_current {s : State} (h : Clean s) (a : Accessor) : CleanArg a (s (setterField a)) := by
  cases a <;> first | trivial | exact h.1 | exact h.2

theorem clean_upd {s : State} (h : Clean s) (a : Accessor) (v : Den (ty (setterField a)))
    (hv : CleanArg a v) : Clean (upd s (setterField a) v) := by
  constructor
  · by_cases e : a = .coreAdviserSaturationMargin
    · subst e; exact hv
    · have : Field.coreAdviserSaturationMargin ≠ setterField a := fun h => e (setterField_injective h.symm)
      rw [upd_other _ _ _ _ this]; exact h.1
  · by_cases e : a = .coreAdviserSaturationDeratingTemperature
    · subst e; exact hv
    · have : Field.coreAdviserSaturationDeratingTemperature ≠ setterField a :=
        fun h => e (setterField_injective h.symm)
      rw [upd_other _ _ _ _ this]; exact h.2

theorem clean_setAcc {s : State} (h : Clean s) (a : Accessor) (v : Den (ty (setterField a)))
    (hv : CleanArg a v) : Clean (setAcc a v s).1 := by
  unfold setAcc; split
  · exact h
  · exact clean_upd h a v hv

theorem clean_other {s : State} (h : Clean s) (f : Field) (v : Den (ty f))
    (h1 : Field.coreAdviserSaturationMargin ≠ f) (h2 : Field.coreAdviserSaturationDeratingTemperature ≠ f) :
    Clean (upd s f v) := by
  constructor
  · rw [upd_other _ _ _ _ h1]; exact h.1
  · rw [upd_other _ _ _ _ h2]; exact h.2

theorem exec_clean (frozen : Bool) (p : Prog) : NoNan p → ∀ s s', Clean s →
    (exec frozen p s).state = some s' → Clean s' := by
  induction p with
  | call c =>
    intro hn s s' h hs
    have hs' : s' = (call frozen c s).1 := by
      simp only [exec] at hs
      split at hs <;> (cases hs; rfl)
    subst hs'
    cases c with
    | set a v => exact clean_setAcc h a v (noNan_set a v hn)
    | setPreferredLossModel m => exact clean_other h _ _ (by decide) (by decide)
    | setCciPath p => exact clean_other h _ _ (by decide) (by decide)
    | setDebug b => exact clean_other h _ _ (by decide) (by decide)
    | reset =>
      show Clean (resetCall frozen s).1
      constructor
      · rw [reset_restores frozen s _ (by decide)]; exact fun h => by cases h
      · rw [reset_restores frozen s _ (by decide)]; exact fun h => by cases h
  | other t =>
    intro _ s s' h hs
    simp only [exec] at hs
    split at hs <;> (cases hs; exact h)
  | seq p q ihp ihq =>
    intro hn s s' h hs
    simp only [exec] at hs
    cases hr : exec frozen p s with
    | done s1 => rw [hr] at hs; exact ihq hn.2 s1 s' (ihp hn.1 s s1 h (by rw [hr]; rfl)) hs
    | thrown s1 => rw [hr] at hs; cases hs; exact ihp hn.1 s s' h (by rw [hr]; rfl)
    | terminated => rw [hr] at hs; cases hs
  | tryCatch p q ihp ihq =>
    intro hn s s' h hs
    simp only [exec] at hs
    cases hr : exec frozen p s with
    | thrown s1 => rw [hr] at hs; exact ihq hn.2 s1 s' (ihp hn.1 s s1 h (by rw [hr]; rfl)) hs
    | done s1 => rw [hr] at hs; cases hs; exact ihp hn.1 s s' h (by rw [hr]; rfl)
    | terminated => rw [hr] at hs; cases hs
  | guard a v p ih =>
    intro hn s s' h hs
    obtain ⟨hv, hp⟩ := noNan_guard a v p hn
    simp only [exec, previous_eq] at hs
    have h1 := clean_setAcc h a v hv
    split at hs
    · cases hs; exact h1
    · have key : ∀ (k : State → Res), (∀ t, (k t).state = some t) → ∀ s1, Clean s1 →
          (restore a (s (setterField a)) s1 k).state = some s' → Clean s' := by
        intro k hk s1 hc hx
        unfold restore at hx
        simp only at hx
        split at hx
        · cases hx
        · rw [hk] at hx; cases hx; exact clean_setAcc hc a _ (clean_current h a)
      cases hx : exec frozen p (setAcc a v s).1 with
      | done s1 => rw [hx] at hs; exact key .done (fun _ => rfl) s1 (ih hp _ _ h1 (by rw [hx]; rfl)) hs
      | thrown s1 => rw [hx] at hs; exact key .thrown (fun _ => rfl) s1 (ih hp _ _ h1 (by rw [hx]; rfl)) hs
      | terminated => rw [hx] at hs; cases hs

/-- **C22**, partial: after any program that passes no NaN, the margin is at least 1 and the derating
temperature at least absolute zero. What is missing: NaN is not refused (`margin_nan_accepted`). -/
theorem margin_at_least_one_partial (frozen : Bool) (p : Prog) (hp : NoNan p) (s : State)
    (h : (exec frozen p initial).state = some s) :
    AtLeast 1 (s .coreAdviserSaturationMargin) ∧
    AtLeast (-27315/100) (s .coreAdviserSaturationDeratingTemperature) := by
  obtain ⟨s1, e1, h1⟩ := exec_ok frozen p initial ok_initial
  rw [e1] at h; cases h
  have hc := exec_clean frozen p hp initial s ⟨(fun h => by cases h), (fun h => by cases h)⟩ e1
  exact ⟨(atLeast_iff _ _).mpr ⟨hc.1, h1.1⟩, (atLeast_iff _ _).mpr ⟨hc.2, h1.2⟩⟩

/-- **C22**: with any arguments, NaN included, neither setting is ever below its limit. -/
theorem margin_never_below_one (frozen : Bool) (p : Prog) (s : State)
    (h : (exec frozen p initial).state = some s) :
    (∀ x, s .coreAdviserSaturationMargin = .fin x → 1 ≤ x) ∧
    (∀ x, s .coreAdviserSaturationDeratingTemperature = .fin x → -27315/100 ≤ x) := by
  obtain ⟨s1, e1, h1⟩ := exec_ok frozen p initial ok_initial
  rw [e1] at h; cases h
  constructor
  · intro x hx
    have := h1.1
    rw [hx] at this
    simpa [Scoring.Num.ltB] using this
  · intro x hx
    have := h1.2
    rw [hx] at this
    simpa [Scoring.Num.ltB] using this

/-- **C22**: a rejected setter call changes nothing, and the calls rejected are exactly those with a value
below the limit. -/
theorem rejected_changes_nothing (a : Accessor) (v : Den (ty (setterField a))) (s : State)
    (h : (setAcc a v s).2 = true) : (setAcc a v s).1 = s := by
  by_cases hr : rejects a v = true
  · simp [setAcc, hr]
  · simp [setAcc, hr] at h

theorem margin_rejected_iff (x : ℚ) (s : State) :
    (setAcc .coreAdviserSaturationMargin (.fin x) s).2 = true ↔ x < 1 := by
  have : ∀ c : Bool, (if c then (s, true) else
      (upd s (setterField .coreAdviserSaturationMargin) (.fin x), false)).2 = c := by
    intro c; cases c <;> rfl
  show (if rejects _ _ then _ else _ : State × Bool).2 = true ↔ _
  rw [this]
  simp [rejects, Scoring.Num.ltB]

theorem derating_rejected_iff (x : ℚ) (s : State) :
    (setAcc .coreAdviserSaturationDeratingTemperature (.fin x) s).2 = true ↔ x < -27315/100 := by
  have : ∀ c : Bool, (if c then (s, true) else
      (upd s (setterField .coreAdviserSaturationDeratingTemperature) (.fin x), false)).2 = c := by
    intro c; cases c <;> rfl
  show (if rejects _ _ then _ else _ : State × Bool).2 = true ↔ _
  rw [this]
  simp [rejects, Scoring.Num.ltB]

/-- **C22**: a magnetic kept by the saturation gate has a peak flux density of at most the saturation flux
density divided by the margin, hence not above saturation; and the flux used for sizing is never above 70 %
of saturation. -/
theorem gate_keeps_below_saturation (m b bs : ℚ) (hm : 1 ≤ m) (hb : 0 ≤ b)
    (h : saturationGate (.fin m) b bs = true) : b ≤ bs / m ∧ b ≤ bs := by
  have h' : b * m ≤ bs := by simpa [saturationGate, mul, Scoring.Num.ltB] using h
  have hm0 : (0:ℚ) < m := by linarith
  refine ⟨(le_div_iff₀ hm0).mpr h', ?_⟩
  nlinarith

theorem gate_complete (m b bs : ℚ) (h : b * m ≤ bs) : saturationGate (.fin m) b bs = true := by
  simpa [saturationGate, mul, Scoring.Num.ltB] using h

theorem maximumAllowedFlux_safe (m bs : ℚ) (hm : 1 ≤ m) (hb : 0 ≤ bs) :
    0 ≤ maximumAllowedFlux m bs ∧ maximumAllowedFlux m bs ≤ bs / m ∧ maximumAllowedFlux m bs ≤ 7/10 * bs ∧
    saturationGate (.fin m) (maximumAllowedFlux m bs) bs = true := by
  have hm0 : (0:ℚ) < m := by linarith
  have hinv : (0:ℚ) ≤ 1 / m := by positivity
  have hmin : min (1 / m) (7/10) ≤ 1 / m := min_le_left _ _
  have hmin' : min (1 / m) (7/10 : ℚ) ≤ 7/10 := min_le_right _ _
  have h1 : maximumAllowedFlux m bs ≤ bs / m := by
    unfold maximumAllowedFlux
    rw [div_eq_mul_one_div bs m]
    exact mul_le_mul_of_nonneg_left hmin hb
  refine ⟨mul_nonneg hb (le_min hinv (by norm_num)), h1, ?_, ?_⟩
  · unfold maximumAllowedFlux; nlinarith
  · exact gate_complete _ _ _ ((le_div_iff₀ hm0).mp h1)

/-- **C22**: the evaluation temperature is never below the operating temperature nor below the setting. -/
theorem derating_never_cooler (setting operating : ℚ) :
    operating ≤ deratingTemperature setting operating ∧ setting ≤ deratingTemperature setting operating ∧
    (deratingTemperature setting operating = operating ∨ deratingTemperature setting operating = setting) :=
  ⟨le_max_left _ _, le_max_right _ _, max_choice _ _⟩

/-- Disagreement with **C22**: a NaN margin is accepted by the setter, and then the saturation gate keeps any
magnetic, however saturated. -/
theorem margin_nan_accepted (s : State) (b bs : ℚ) :
    (setAcc .coreAdviserSaturationMargin .nan s).2 = false ∧
    (setAcc .coreAdviserSaturationMargin .nan s).1 .coreAdviserSaturationMargin = .nan ∧
    saturationGate .nan b bs = true := by
  refine ⟨rfl, ?_, rfl⟩
  show upd s .coreAdviserSaturationMargin _ .coreAdviserSaturationMargin = _
  exact upd_same _ _ _

/-- A program that meets `NoNan`. -/
example : NoNan (.seq (.guard .coreAdviserSaturationMargin (.fin 1) (.other true)) (.call .reset)) :=
  ⟨⟨(fun h => by cases h), trivial⟩, trivial⟩

end Verif.Settings
