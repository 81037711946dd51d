import Verif.Settings.Model
import Verif.Settings.Inverse

/-! # Helper lemmas about settings -/

namespace Verif.Settings

theorem upd_same (s : State) (f : Field) (v : Den (ty f)) : upd s f v f = v := by simp [upd]

theorem upd_other (s : State) (f g : Field) (v : Den (ty f)) (h : g ≠ f) : upd s f v g = s g := by
  simp [upd, h]

/-- The previous value read through the getter is the member the setter assigns. -/
theorem previous_eq (a : Accessor) (s : State) : previous a (accessor_pairs a) s = s (setterField a) := by
  unfold previous
  have : ∀ (f g : Field) (h : f = g), (h ▸ s f : Den (ty g)) = s g := by
    intro f g h; subst h; rfl
  exact this _ _ (accessor_pairs a)

/-- No two setters assign the same member. -/
theorem setterField_injective : Function.Injective setterField := by
  intro a b h
  have := accessorOf_setterField a
  rw [h, accessorOf_setterField b] at this
  exact (Option.some.inj this).symm

/-- Neither checked setting holds a value its setter would refuse. -/
def Ok (s : State) : Prop :=
  Scoring.Num.ltB (s .coreAdviserSaturationMargin) (.fin 1) = false ∧
  Scoring.Num.ltB (s .coreAdviserSaturationDeratingTemperature) (.fin (-27315/100)) = false

theorem rejects_current {s : State} (h : Ok s) (a : Accessor) : rejects a (s (setterField a)) = false := by
  cases a <;> first | rfl | exact h.1 | exact h.2

theorem ok_setAcc {s : State} (h : Ok s) (a : Accessor) (v : Den (ty (setterField a))) :
    Ok (setAcc a v s).1 := by
  unfold setAcc
  by_cases hr : rejects a v = true
  · rw [if_pos hr]; exact h
  · rw [if_neg hr]
    have hr' : rejects a v = false := by simpa using hr
    constructor
    · by_cases e : a = .coreAdviserSaturationMargin
      · subst e; exact hr'
      · have : Field.coreAdviserSaturationMargin ≠ setterField a := fun h => e (setterField_injective h.symm)
        show Scoring.Num.ltB (upd s (setterField a) v .coreAdviserSaturationMargin) _ = _
        rw [upd_other _ _ _ _ this]; exact h.1
    · by_cases e : a = .coreAdviserSaturationDeratingTemperature
      · subst e; exact hr'
      · have : Field.coreAdviserSaturationDeratingTemperature ≠ setterField a :=
          fun h => e (setterField_injective h.symm)
        show Scoring.Num.ltB (upd s (setterField a) v .coreAdviserSaturationDeratingTemperature) _ = _
        rw [upd_other _ _ _ _ this]; exact h.2

theorem ok_upd_other {s : State} (h : Ok s) (f : Field) (v : Den (ty f))
    (h1 : Field.coreAdviserSaturationMargin ≠ f) (h2 : Field.coreAdviserSaturationDeratingTemperature ≠ f) :
    Ok (upd s f v) := by
  constructor
  · rw [upd_other _ _ _ _ h1]; exact h.1
  · rw [upd_other _ _ _ _ h2]; exact h.2

theorem ok_initial : Ok initial := by
  constructor <;> decide +kernel

theorem resetCall_eq (frozen : Bool) (s : State) (f : Field) :
    (resetCall frozen s).1 f = (resetValue f).getD (s f) := rfl

theorem ok_call {s : State} (h : Ok s) (frozen : Bool) (c : Call) : Ok (call frozen c s).1 := by
  cases c with
  | set a v => exact ok_setAcc h a v
  | setPreferredLossModel m => exact ok_upd_other h _ _ (by decide) (by decide)
  | setCciPath p => exact ok_upd_other h _ _ (by decide) (by decide)
  | setDebug b => exact ok_upd_other h _ _ (by decide) (by decide)
  | reset => exact ok_initial

/-- The state left by a program, if the process survived. -/
def Res.state : Res → Option State
  | .done s => some s
  | .thrown s => some s
  | .terminated => none

/-- The outcome of the body of a guard when the previous value is acceptable. -/
theorem restore_ok {a : Accessor} {prev : Den (ty (setterField a))} (h : rejects a prev = false) (s : State)
    (k : State → Res) : restore a prev s k = k (upd s (setterField a) prev) := by
  simp [restore, setAcc, h]

/-- From an acceptable state no program ends the process, and it leaves an acceptable state. -/
theorem exec_ok (frozen : Bool) (p : Prog) : ∀ s, Ok s → ∃ s', (exec frozen p s).state = some s' ∧ Ok s' := by
  induction p with
  | call c =>
    intro s h
    refine ⟨(call frozen c s).1, ?_, ok_call h frozen c⟩
    simp only [exec]; split <;> rfl
  | other t => intro s h; refine ⟨s, ?_, h⟩; simp only [exec]; split <;> rfl
  | seq p q ihp ihq =>
    intro s h
    obtain ⟨s1, e1, h1⟩ := ihp s h
    simp only [exec]
    cases hr : exec frozen p s with
    | done s' => rw [hr] at e1; cases e1; exact ihq s1 h1
    | thrown s' => rw [hr] at e1; exact ⟨s1, e1, h1⟩
    | terminated => rw [hr] at e1; cases e1
  | tryCatch p q ihp ihq =>
    intro s h
    obtain ⟨s1, e1, h1⟩ := ihp s h
    simp only [exec]
    cases hr : exec frozen p s with
    | done s' => rw [hr] at e1; exact ⟨s1, e1, h1⟩
    | thrown s' => rw [hr] at e1; cases e1; exact ihq s1 h1
    | terminated => rw [hr] at e1; cases e1
  | guard a v p ih =>
    intro s h
    simp only [exec, previous_eq]
    by_cases hr : (setAcc a v s).2 = true
    · rw [if_pos hr]; exact ⟨_, rfl, ok_setAcc h a v⟩
    · rw [if_neg hr]
      obtain ⟨s1, e1, h1⟩ := ih _ (ok_setAcc h a v)
      have hc := rejects_current h a
      have hok : Ok (upd s1 (setterField a) (s (setterField a))) := by
        have := ok_setAcc h1 a (s (setterField a))
        simpa [setAcc, hc] using this
      cases hx : exec frozen p (setAcc a v s).1 with
      | done s' => rw [hx] at e1; cases e1; simp only [restore_ok hc]; exact ⟨_, rfl, hok⟩
      | thrown s' => rw [hx] at e1; cases e1; simp only [restore_ok hc]; exact ⟨_, rfl, hok⟩
      | terminated => rw [hx] at e1; cases e1

end Verif.Settings
