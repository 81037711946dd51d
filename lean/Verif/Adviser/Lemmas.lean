import Verif.Adviser.Model
import Verif.Scoring.Lemmas
import Mathlib.Tactic.Ring
import Mathlib.Tactic.Linarith
import Mathlib.Tactic.FieldSimp

/-! # Lemmas about the core adviser's machinery -/

set_option linter.unusedSimpArgs false
set_option linter.unusedSectionVars false

namespace Verif.Adviser

open Verif.Scoring (Num)

variable {S M R K σ : Type}

/-- What the evaluator does to the candidates one after the other, each in the state left by the ones before:
the copy it leaves and the outcome. -/
def trace (ev : Evaluator S M K) : S → List M → List (M × Eval K)
  | _, [] => []
  | s, m :: ms => (ev s m).2 :: trace ev (ev s m).1 ms

/-- The candidate kept for one traced evaluation. -/
def keepOne (wb : Bool) (q : (M × K) × (M × Eval K)) : Option ((M × K) × Num K) :=
  match q.2.2 with
  | .verdict true sc => some (((if wb then q.2.1 else q.1.1), q.1.2), sc)
  | _ => none

theorem keepOne_valid (wb : Bool) (m m' : M) (t : K) (sc : Num K) :
    keepOne wb ((m, t), (m', .verdict true sc)) = some (((if wb then m' else m), t), sc) := rfl

theorem keepOne_invalid (wb : Bool) (m m' : M) (t : K) (sc : Num K) :
    keepOne wb ((m, t), (m', .verdict false sc)) = none := rfl

theorem keepOne_exception (wb : Bool) (m m' : M) (t : K) :
    keepOne wb ((m, t), (m', .libraryException)) = none := rfl

theorem dropErased_skip {α : Type} (i : Nat) (er : List Nat) (x : α) (l : List α) (h : ∀ e ∈ er, i + 1 ≤ e) :
    dropErased i er (x :: l) = x :: dropErased (i + 1) er l := by
  cases er with
  | nil => rfl
  | cons e er =>
    have := h e (by simp)
    have hne : i ≠ e := by omega
    simp [dropErased, hne]

theorem evalLoop_spec (ev : Evaluator S M K) (wb : Bool) (l : List (M × K)) : ∀ (i : Nat) (s : S),
    (evalLoop ev wb i s l = none ↔ ∃ q ∈ trace ev s (l.map Prod.fst), q.2 = .otherException) ∧
    ∀ r, evalLoop ev wb i s l = some r →
      (∀ e ∈ r.2.2.2, i ≤ e) ∧
      dropErased i r.2.2.2 r.2.1 = ((l.zip (trace ev s (l.map Prod.fst))).filterMap (keepOne wb)).map Prod.fst ∧
      r.2.2.1 = ((l.zip (trace ev s (l.map Prod.fst))).filterMap (keepOne wb)).map Prod.snd := by
  induction l with
  | nil => intro i s; simp [evalLoop, trace, dropErased]
  | cons p l ih =>
    obtain ⟨m, t⟩ := p
    intro i s
    rcases hev : ev s m with ⟨s', m', o⟩
    obtain ⟨ih1, ih2⟩ := ih (i + 1) s'
    cases o with
    | verdict v sc =>
      cases v with
      | true =>
        simp only [evalLoop, hev, List.map_cons, trace, Option.map_eq_none_iff, List.mem_cons]
        constructor
        · rw [ih1]
          constructor
          · rintro ⟨q, h1, h2⟩; exact ⟨q, Or.inr h1, h2⟩
          · rintro ⟨q, h1 | h1, h2⟩
            · subst h1; simp at h2
            · exact ⟨q, h1, h2⟩
        · intro r hr
          obtain ⟨r', hr', rfl⟩ := Option.map_eq_some_iff.mp hr
          obtain ⟨g1, g2, g3⟩ := ih2 r' hr'
          refine ⟨fun e he => by have := g1 e he; omega, ?_, ?_⟩
          · rw [dropErased_skip _ _ _ _ g1, g2]
            simp [keepOne_valid, List.filterMap_cons]
          · simp [keepOne_valid, keepOne_invalid, keepOne_exception, List.filterMap_cons, g3]
      | false =>
        simp only [evalLoop, hev, List.map_cons, trace, Option.map_eq_none_iff, List.mem_cons]
        constructor
        · rw [ih1]
          constructor
          · rintro ⟨q, h1, h2⟩; exact ⟨q, Or.inr h1, h2⟩
          · rintro ⟨q, h1 | h1, h2⟩
            · subst h1; simp at h2
            · exact ⟨q, h1, h2⟩
        · intro r hr
          obtain ⟨r', hr', rfl⟩ := Option.map_eq_some_iff.mp hr
          obtain ⟨g1, g2, g3⟩ := ih2 r' hr'
          refine ⟨?_, ?_, ?_⟩
          · intro e he
            rcases List.mem_cons.mp he with rfl | h
            · exact le_refl _
            · have := g1 e h; omega
          · simp [dropErased, keepOne_invalid, keepOne_exception, List.filterMap_cons, g2]
          · simp [keepOne_valid, keepOne_invalid, keepOne_exception, List.filterMap_cons, g3]
    | libraryException =>
      simp only [evalLoop, hev, List.map_cons, trace, Option.map_eq_none_iff, List.mem_cons]
      constructor
      · rw [ih1]
        constructor
        · rintro ⟨q, h1, h2⟩; exact ⟨q, Or.inr h1, h2⟩
        · rintro ⟨q, h1 | h1, h2⟩
          · subst h1; simp at h2
          · exact ⟨q, h1, h2⟩
      · intro r hr
        obtain ⟨r', hr', rfl⟩ := Option.map_eq_some_iff.mp hr
        obtain ⟨g1, g2, g3⟩ := ih2 r' hr'
        refine ⟨?_, ?_, ?_⟩
        · intro e he
          rcases List.mem_cons.mp he with rfl | h
          · exact le_refl _
          · have := g1 e h; omega
        · simp [dropErased, keepOne_invalid, keepOne_exception, List.filterMap_cons, g2]
        · simp [keepOne_valid, keepOne_invalid, keepOne_exception, List.filterMap_cons, g3]
    | otherException =>
      simp [evalLoop, hev, trace]

/-- When the outcome does not depend on the state, the trace is a map. -/
theorem trace_stateless (ev : Evaluator S M K) (f : M → M × Eval K) (h : ∀ s m, (ev s m).2 = f m) (l : List M) :
    ∀ s, trace ev s l = l.map f := by
  induction l with
  | nil => intro s; rfl
  | cons m l ih => intro s; simp [trace, h, ih]

theorem allFinite_length {l : List (Option K)} : ∀ {xs}, allFinite l = some xs → xs.length = l.length := by
  induction l with
  | nil => intro xs h; simp [allFinite] at h; simp [← h]
  | cons o l ih =>
    intro xs h
    cases o with
    | none => simp [allFinite] at h
    | some x =>
      simp only [allFinite, Option.map_eq_some_iff] at h
      obtain ⟨ys, hy, rfl⟩ := h
      simp [ih hy]

variable [Field K] [LinearOrder K] [IsStrictOrderedRing K]

theorem addScores_fst (ms : List (M × K)) : ∀ (ss : List K) r, Scoring.addScores ms ss = some r →
    r.map Prod.fst = ms.map Prod.fst := by
  induction ms with
  | nil => intro ss r h; simp [Scoring.addScores] at h; simp [← h]
  | cons p ms ih =>
    obtain ⟨m, t⟩ := p
    intro ss r h
    cases ss with
    | nil => simp [Scoring.addScores] at h
    | cons s ss =>
      simp only [Scoring.addScores, Option.map_eq_some_iff] at h
      obtain ⟨r', hr', rfl⟩ := h
      simp [ih ss r' hr']

theorem applyScoring_ok (lg : K → K) (invert log : Bool) (w : K) (items : List (M × K)) (scores : List (Num K))
    (out : List (M × K)) (h : applyScoring lg invert log w items scores = .ok out) :
    (out.map Prod.fst).Perm (items.map Prod.fst) ∧ out.Pairwise (fun a b => b.2 ≤ a.2) := by
  cases items with
  | nil => simp [applyScoring] at h; subst h; simp
  | cons p items =>
    simp only [applyScoring] at h
    cases hn : Scoring.normalizeList lg w invert log scores with
    | none => rw [hn] at h; simp at h
    | some ns =>
      rw [hn] at h; simp only at h
      cases hf : allFinite ns with
      | none => rw [hf] at h; simp at h
      | some xs =>
        rw [hf] at h; simp only at h
        cases ha : Scoring.addScores (p :: items) xs with
        | none => rw [ha] at h; simp at h
        | some o =>
          rw [ha] at h; simp only [Except.ok.injEq] at h
          subst h
          refine ⟨?_, Scoring.sortDesc_sorted o⟩
          rw [← addScores_fst _ _ _ ha]
          exact (Scoring.sortDesc_perm o).map _

theorem addTurns_fst (w mn mx : K) (ms : List (M × K)) : ∀ (ss : List (Num K)) r, addTurns w mn mx ms ss = some r →
    r.map Prod.fst = ms.map Prod.fst := by
  induction ms with
  | nil => intro ss r h; simp [addTurns] at h; simp [← h]
  | cons p ms ih =>
    obtain ⟨m, t⟩ := p
    intro ss r h
    cases ss with
    | nil => simp [addTurns] at h
    | cons s ss =>
      cases s with
      | fin v =>
        simp only [addTurns, Option.map_eq_some_iff] at h
        obtain ⟨r', hr', rfl⟩ := h
        simp [ih ss r' hr']
      | _ => simp [addTurns] at h

theorem runStages_append (a b : List (Stage M K)) : ∀ l,
    runStages (a ++ b) l = match runStages a l with | .error e => .error e | .ok l' => runStages b l' := by
  induction a with
  | nil => intro l; rfl
  | cons st a ih =>
    intro l
    simp only [List.cons_append, runStages]
    cases st l with
    | error e => rfl
    | ok l' => exact ih l'

end Verif.Adviser
