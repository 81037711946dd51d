import Verif.Adviser.Lemmas
import Mathlib.Algebra.Order.Ring.Rat
import Mathlib.Algebra.Field.Rat
import Mathlib.Tactic.NormNum
import Mathlib.Tactic.Positivity
import Mathlib.Data.Real.Sqrt
import Mathlib.Tactic.Linarith
import Mathlib.Tactic.Ring
import Mathlib.Tactic.FieldSimp
import Mathlib.Tactic.LinearCombination

/-! # Properties of the core adviser's machinery (C13, C14, C43 to C47) -/

set_option linter.unusedSimpArgs false
set_option linter.unusedSectionVars false

namespace Verif.Adviser

open Verif.Scoring (Num)

variable {S M R K σ : Type}

/-! ## C13: a filter removes exactly the invalid candidates -/

/-- **C13**: whatever the evaluator does to its state and to the copies it is given, the cull fails exactly when
some evaluation throws an exception that is not the library's, and otherwise keeps, in order, exactly the
candidates whose evaluation (in the state left by the ones before) says valid, with their totals and with one score
each. The internal size check never fires. -/
theorem cull_result (ev : Evaluator S M K) (wb : Bool) (s : S) (l : List (M × K)) :
    (evaluateAndCull ev wb s l = .error .foreign ↔
      ∃ q ∈ trace ev s (l.map Prod.fst), q.2 = .otherException) ∧
    evaluateAndCull ev wb s l ≠ .error .sizes ∧
    ∀ s' items scores, evaluateAndCull ev wb s l = .ok (s', items, scores) →
      items = ((l.zip (trace ev s (l.map Prod.fst))).filterMap (keepOne wb)).map Prod.fst ∧
      scores = ((l.zip (trace ev s (l.map Prod.fst))).filterMap (keepOne wb)).map Prod.snd ∧
      items.length = scores.length := by
  obtain ⟨h1, h2⟩ := evalLoop_spec ev wb l 0 s
  unfold evaluateAndCull
  cases hl : evalLoop ev wb 0 s l with
  | none =>
    refine ⟨⟨fun _ => h1.mp hl, fun _ => rfl⟩, by simp, by simp⟩
  | some r =>
    obtain ⟨s', items, scores, erase⟩ := r
    obtain ⟨_, g2, g3⟩ := h2 _ hl
    simp only at g2 g3
    have hlen : (dropErased 0 erase items).length = scores.length := by rw [g2, g3]; simp
    have hno : ¬ ∃ q ∈ trace ev s (l.map Prod.fst), q.2 = .otherException := by
      rw [← h1, hl]; simp
    refine ⟨⟨?_, fun h => absurd h hno⟩, ?_, ?_⟩
    · simp [hlen]
    · simp [hlen]
    · intro s'' items' scores' h
      simp only [hlen, ne_eq, not_true_eq_false, if_false, Except.ok.injEq, Prod.mk.injEq] at h
      obtain ⟨_, rfl, rfl⟩ := h
      exact ⟨g2, g3, hlen⟩

/-- The evaluator judges the magnetic valid. -/
def judged (f : M → M × Eval K) (m : M) : Bool :=
  match (f m).2 with
  | .verdict true _ => true
  | _ => false

/-- What becomes of one magnetic under a filter whose verdicts depend on the magnetic only. -/
def pass (f : M → M × Eval K) (wb : Bool) (m : M) : Option M :=
  if judged f m then some (if wb then (f m).1 else m) else none

theorem zip_map_filterMap (f : M → M × Eval K) (wb : Bool) (l : List (M × K)) :
    ((l.zip ((l.map Prod.fst).map f)).filterMap (keepOne wb)).map Prod.fst =
      l.filterMap (fun p => (pass f wb p.1).map (fun m => (m, p.2))) := by
  induction l with
  | nil => rfl
  | cons p l ih =>
    obtain ⟨m, t⟩ := p
    rcases hf : f m with ⟨m', o⟩
    cases o with
    | verdict v sc =>
      cases v with
      | true =>
        simp only [List.map_cons, List.zip_cons_cons, hf, List.filterMap_cons, keepOne_valid, ih, pass, judged,
          if_true, Option.map_some]
      | false =>
        simp only [List.map_cons, List.zip_cons_cons, hf, List.filterMap_cons, keepOne_invalid, ih, pass, judged,
          Bool.false_eq_true, if_false, Option.map_none]
    | libraryException =>
      simp only [List.map_cons, List.zip_cons_cons, hf, List.filterMap_cons, keepOne_exception, ih, pass, judged,
        Bool.false_eq_true, if_false, Option.map_none]
    | otherException =>
      have : keepOne wb ((m, t), (m', (.otherException : Eval K))) = none := rfl
      simp only [List.map_cons, List.zip_cons_cons, hf, List.filterMap_cons, this, ih, pass, judged,
        Bool.false_eq_true, if_false, Option.map_none]

/-- **C13**: when a verdict depends on the magnetic only, the candidates kept are, in order and with their totals,
those whose verdict is valid; without write-back they form a sublist of the candidates. -/
theorem cull_stateless (ev : Evaluator S M K) (f : M → M × Eval K) (hf : ∀ s m, (ev s m).2 = f m) (wb : Bool) (s s' : S)
    (l items : List (M × K)) (scores : List (Num K)) (h : evaluateAndCull ev wb s l = .ok (s', items, scores)) :
    items = l.filterMap (fun p => (pass f wb p.1).map (fun m => (m, p.2))) ∧
    (wb = false → items = l.filter (fun p => judged f p.1) ∧ items.Sublist l) := by
  obtain ⟨h1, _, _⟩ := (cull_result ev wb s l).2.2 s' items scores h
  rw [trace_stateless ev f hf, zip_map_filterMap] at h1
  refine ⟨h1, fun hw => ?_⟩
  have e : items = l.filter (fun p => judged f p.1) := by
    rw [h1, ← List.filterMap_eq_filter]
    congr 1
    funext p
    simp only [pass, hw]
    by_cases hs : judged f p.1 = true <;> simp [hs, Option.guard]
  exact ⟨e, e ▸ List.filter_sublist⟩

example : evaluateAndCull (fun (s : Nat) (m : Nat) => (s + 1, m * 10,
      if m = 3 then .libraryException else .verdict (decide (m + s < 6)) (.fin (m : ℚ)))) true 0
      [(1, 5), (3, 4), (2, 3), (9, 1)] =
    .ok (4, [(10, 5), (20, 3)], [.fin 1, .fin 2]) := by decide +kernel

variable [Field K] [LinearOrder K] [IsStrictOrderedRing K]

/-- Specification of a stage that only removes or rewrites candidates one by one: what it returns is, up to order,
the images of those that pass. -/
def FiltersBy (g : M → Option M) (st : Stage M K) : Prop :=
  ∀ l out, st l = .ok out → (out.map Prod.fst).Perm ((l.map Prod.fst).filterMap g)

theorem fst_filterMap (g : M → Option M) (l : List (M × K)) :
    (l.filterMap (fun p => (g p.1).map (fun m => (m, p.2)))).map Prod.fst = (l.map Prod.fst).filterMap g := by
  induction l with
  | nil => rfl
  | cons p l ih =>
    obtain ⟨m, t⟩ := p
    cases hg : g m <;> simp [hg, ih]

/-- **C13** for the filters that always gate: for every weight (negative and zero too), first pass or not, what
survives is exactly what the evaluation judges valid. -/
theorem gate_filters (lg : K → K) (invert log : Bool) (ev : Evaluator S M K) (f : M → M × Eval K)
    (hf : ∀ s m, (ev s m).2 = f m) (wb scoring : Bool) (w : K) (s : S) :
    FiltersBy (pass f wb) (gateFilter lg invert log ev wb scoring w s) := by
  intro l out h
  unfold gateFilter at h
  cases hc : evaluateAndCull ev wb s l with
  | error e => rw [hc] at h; simp at h
  | ok r =>
    obtain ⟨s', items, scores⟩ := r
    rw [hc] at h
    simp only at h
    have hi := (cull_stateless ev f hf wb s s' l items scores hc).1
    have : items.map Prod.fst = (l.map Prod.fst).filterMap (pass f wb) := by rw [hi, fst_filterMap]
    by_cases hw : scoring = true ∧ 0 < w
    · rw [if_pos hw] at h
      rw [← this]
      exact (applyScoring_ok lg invert log w items scores out h).1
    · rw [if_neg hw] at h
      simp only [Except.ok.injEq] at h
      rw [← h, this]

/-- **C13** for the filters that are skipped at weight zero: with a positive weight they gate like the others. -/
theorem optional_filters (lg : K → K) (invert log : Bool) (ev : Evaluator S M K) (f : M → M × Eval K)
    (hf : ∀ s m, (ev s m).2 = f m) (w : K) (hw : 0 < w) (s : S) :
    FiltersBy (pass f true) (optionalFilter lg invert log ev false w s) := by
  intro l out h
  unfold optionalFilter at h
  rw [if_neg (not_le.mpr hw)] at h
  simp only [Bool.false_eq_true, if_false] at h
  cases hc : evaluateAndCull ev true s l with
  | error e => rw [hc] at h; simp at h
  | ok r =>
    obtain ⟨s', items, scores⟩ := r
    rw [hc] at h
    simp only at h
    have hi := (cull_stateless ev f hf true s s' l items scores hc).1
    have : items.map Prod.fst = (l.map Prod.fst).filterMap (pass f true) := by rw [hi, fst_filterMap]
    rw [← this]
    exact (applyScoring_ok lg invert log w items scores out h).1

/-- **C13** for the turn-count filter. -/
theorem turnCount_filters (ev : Evaluator S M K) (f : M → M × Eval K) (hf : ∀ s m, (ev s m).2 = f m) (w : K)
    (hw : 0 < w) (s : S) : FiltersBy (pass f false) (turnCountFilter ev w s) := by
  intro l out h
  unfold turnCountFilter at h
  rw [if_neg (not_le.mpr hw)] at h
  cases hc : evaluateAndCull ev false s l with
  | error e => rw [hc] at h; simp at h
  | ok r =>
    obtain ⟨s', items, scores⟩ := r
    rw [hc] at h
    simp only at h
    have hi := (cull_stateless ev f hf false s s' l items scores hc).1
    have key : items.map Prod.fst = (l.map Prod.fst).filterMap (pass f false) := by rw [hi, fst_filterMap]
    rw [← key]
    cases items with
    | nil => simp at h; simp [← h]
    | cons it its =>
      cases scores with
      | nil => simp at h
      | cons x xs =>
        simp only at h
        cases hmn : Scoring.minElement x xs with
        | fin mn =>
          cases hmx : Scoring.maxElement x xs with
          | fin mx =>
            rw [hmn, hmx] at h
            simp only at h
            cases ha : addTurns w mn mx (it :: its) (x :: xs) with
            | none => rw [ha] at h; simp at h
            | some o =>
              rw [ha] at h
              simp only [Except.ok.injEq] at h
              subst h
              rw [← addTurns_fst _ _ _ _ _ _ ha]
              exact (Scoring.sortDesc_perm o).map _
          | _ => rw [hmn, hmx] at h; simp at h
        | _ => rw [hmn] at h; simp at h

theorem keepOne_stateless (f : M → M × Eval K) (l : List (M × K)) :
    (l.zip ((l.map Prod.fst).map f)).filterMap (keepOne false) =
      l.filterMap (fun p => match (f p.1).2 with | .verdict true sc => some (p, sc) | _ => none) := by
  induction l with
  | nil => rfl
  | cons p l ih =>
    obtain ⟨m, t⟩ := p
    rcases hf : f m with ⟨m', o⟩
    simp only [List.map_cons, List.zip_cons_cons, hf, List.filterMap_cons, ih]
    cases o with
    | verdict v sc => cases v <;> simp [keepOne]
    | _ => simp [keepOne]

theorem addTurns_spec (w mn mx : K) (z : List ((M × K) × Num K)) : ∀ r,
    addTurns w mn mx (z.map Prod.fst) (z.map Prod.snd) = some r →
    (∀ q ∈ z, ∃ v, q.2 = .fin v) ∧
    r = z.filterMap (fun q => match q.2 with
      | .fin v => some (q.1.1, q.1.2 + turnContribution w mn mx v) | _ => none) := by
  induction z with
  | nil => intro r h; simp [addTurns] at h; simp [← h]
  | cons q z ih =>
    obtain ⟨⟨m, t⟩, s⟩ := q
    intro r h
    cases s with
    | fin v =>
      simp only [List.map_cons, addTurns, Option.map_eq_some_iff] at h
      obtain ⟨r', hr', rfl⟩ := h
      obtain ⟨i1, i2⟩ := ih r' hr'
      refine ⟨?_, by simp [← i2]⟩
      intro q hq
      rcases List.mem_cons.mp hq with rfl | hq
      · exact ⟨v, rfl⟩
      · exact i1 q hq
    | _ => simp [addTurns] at h

/-- **C13**: the turn-count filter rewards few turns. There is a contribution between zero and the weight for every
number of turns that occurs, strictly smaller for more turns; each valid candidate's total grows by the contribution
of its turns, and the result is ranked. -/
theorem fewer_turns_score_higher (ev : Evaluator S M K) (f : M → M × Eval K) (hf : ∀ s m, (ev s m).2 = f m) (w : K)
    (hw : 0 < w) (s : S) (l out : List (M × K)) (h : turnCountFilter ev w s l = .ok out) :
    ∃ c : K → K,
      (∀ m t v, (m, t) ∈ l → (f m).2 = .verdict true (.fin v) → 0 ≤ c v ∧ c v ≤ w) ∧
      (∀ m t v m' t' v', (m, t) ∈ l → (m', t') ∈ l → (f m).2 = .verdict true (.fin v) →
        (f m').2 = .verdict true (.fin v') → v < v' → c v' < c v) ∧
      out.Perm (l.filterMap (fun p => match (f p.1).2 with
        | .verdict true (.fin v) => some (p.1, p.2 + c v) | _ => none)) ∧
      out.Pairwise (fun a b => b.2 ≤ a.2) := by
  unfold turnCountFilter at h
  rw [if_neg (not_le.mpr hw)] at h
  cases hc : evaluateAndCull ev false s l with
  | error e => rw [hc] at h; simp at h
  | ok r =>
    obtain ⟨s', items, scores⟩ := r
    rw [hc] at h
    simp only at h
    obtain ⟨e1, e2, _⟩ := (cull_result ev false s l).2.2 s' items scores hc
    rw [trace_stateless ev f hf, keepOne_stateless] at e1 e2
    generalize hz : l.filterMap (fun p => match (f p.1).2 with
      | .verdict true sc => some (p, sc) | _ => none) = z at e1 e2
    have occ : ∀ m t v, (m, t) ∈ l → (f m).2 = .verdict true (.fin v) → ((m, t), Num.fin v) ∈ z := by
      intro m t v hm hv
      rw [← hz]
      exact List.mem_filterMap.mpr ⟨(m, t), hm, by simp [hv]⟩
    have flat : ∀ c : K → K, l.filterMap (fun p => match (f p.1).2 with
          | .verdict true (.fin v) => some (p.1, p.2 + c v) | _ => none) =
        z.filterMap (fun q => match q.2 with | .fin v => some (q.1.1, q.1.2 + c v) | _ => none) := by
      intro c
      rw [← hz, List.filterMap_filterMap]
      congr 1
      funext p
      cases (f p.1).2 with
      | verdict b sc => cases b <;> cases sc <;> rfl
      | _ => rfl
    cases z with
    | nil =>
      simp only [List.map_nil] at e1 e2
      subst e1
      simp only [Except.ok.injEq] at h
      subst h
      refine ⟨fun _ => 0, ?_, ?_, ?_, List.Pairwise.nil⟩
      · intro m t v hm hv; exact absurd (occ m t v hm hv) (by simp)
      · intro m t v _ _ _ hm _ hv; exact absurd (occ m t v hm hv) (by simp)
      · rw [flat]; exact List.Perm.refl _
    | cons q z =>
      simp only [List.map_cons] at e1 e2
      subst e1 e2
      simp only at h
      cases hmn : Scoring.minElement q.2 (z.map Prod.snd) with
      | fin mn =>
        cases hmx : Scoring.maxElement q.2 (z.map Prod.snd) with
        | fin mx =>
          rw [hmn, hmx] at h
          simp only at h
          cases ha : addTurns w mn mx (q.1 :: z.map Prod.fst) (q.2 :: z.map Prod.snd) with
          | none => rw [ha] at h; simp at h
          | some o =>
            rw [ha] at h
            simp only [Except.ok.injEq] at h
            subst h
            obtain ⟨fin, ho⟩ := addTurns_spec w mn mx (q :: z) o ha
            obtain ⟨x, hx⟩ := fin q List.mem_cons_self
            rw [hx] at hmn hmx
            have np : ∀ v ∈ z.map Prod.snd, v ≠ Num.pinf := by
              intro v hv
              obtain ⟨q', hq', rfl⟩ := List.mem_map.mp hv
              obtain ⟨y, hy⟩ := fin q' (List.mem_cons_of_mem _ hq')
              rw [hy]; simp
            have lo : ∀ v, (∃ p, (p, Num.fin v) ∈ q :: z) → mn ≤ v := by
              rintro v ⟨p, hp⟩
              rcases Scoring.minElement_fin (z.map Prod.snd) x np with hh | ⟨m, hm, h1, h2, _⟩
              · rw [hh] at hmn; cases hmn
              · rw [hm] at hmn; cases hmn
                rcases List.mem_cons.mp hp with hp | hp
                · rw [← hp] at hx; cases hx; exact h1
                · exact h2 v (List.mem_map.mpr ⟨_, hp, rfl⟩)
            have hi : ∀ v, (∃ p, (p, Num.fin v) ∈ q :: z) → v ≤ mx := by
              rintro v ⟨p, hp⟩
              obtain ⟨m, hm, h1, h2, _⟩ := Scoring.maxElement_fin (z.map Prod.snd) x np
              rw [hm] at hmx; cases hmx
              rcases List.mem_cons.mp hp with hp | hp
              · rw [← hp] at hx; cases hx; exact h1
              · exact h2 v (List.mem_map.mpr ⟨_, hp, rfl⟩)
            refine ⟨turnContribution w mn mx, ?_, ?_, ?_, Scoring.sortDesc_sorted o⟩
            · intro m t v hm hv
              have a := lo v ⟨_, occ m t v hm hv⟩
              have b := hi v ⟨_, occ m t v hm hv⟩
              unfold turnContribution
              split
              · rename_i hlt
                have hd : 0 < mx - mn := sub_pos.mpr hlt
                have q0 : 0 ≤ (v - mn) / (mx - mn) := div_nonneg (sub_nonneg.mpr a) hd.le
                have q1 : (v - mn) / (mx - mn) ≤ 1 := (div_le_one hd).mpr (by linarith)
                constructor
                · exact mul_nonneg hw.le (by linarith)
                · calc w * (1 - (v - mn) / (mx - mn)) ≤ w * 1 := mul_le_mul_of_nonneg_left (by linarith) hw.le
                    _ = w := mul_one w
              · constructor <;> linarith
            · intro m t v m' t' v' hm hm' hv hv' hvv
              have a := lo v ⟨_, occ m t v hm hv⟩
              have b := hi v' ⟨_, occ m' t' v' hm' hv'⟩
              have hlt : mn < mx := lt_of_le_of_lt a (lt_of_lt_of_le hvv b)
              unfold turnContribution
              rw [if_pos hlt, if_pos hlt]
              have hd : 0 < mx - mn := sub_pos.mpr hlt
              have : (v - mn) / (mx - mn) < (v' - mn) / (mx - mn) := div_lt_div_of_pos_right (by linarith) hd
              exact mul_lt_mul_of_pos_left (by linarith) hw
            · rw [flat, ← ho]
              exact Scoring.sortDesc_perm o
        | _ => rw [hmn, hmx] at h; simp at h
      | _ => rw [hmn] at h; simp at h

/-- Two candidates with 10 and 30 turns: the first gains the whole weight, the second nothing. -/
example : ∃ out, turnCountFilter (K := ℚ) (fun (s : Unit) (m : Nat) => (s, m, .verdict true (.fin (m : ℚ)))) 2 ()
    [(30, 1), (10, 0)] = .ok out := by
  refine ⟨Scoring.sortDesc [(30, 1), (10, 2)], ?_⟩
  have : addTurns (K := ℚ) 2 10 30 [((30 : Nat), 1), (10, 0)] [.fin 30, .fin 10] = some [(30, 1), (10, 2)] := by
    decide +kernel
  have h1 : evaluateAndCull (K := ℚ) (fun (s : Unit) (m : Nat) => (s, m, .verdict true (.fin (m : ℚ)))) false ()
      [(30, 1), (10, 0)] = .ok ((), [(30, 1), (10, 0)], [.fin 30, .fin 10]) := by decide +kernel
  have h2 : Scoring.minElement (K := ℚ) (.fin 30) [.fin 10] = .fin 10 := by decide +kernel
  have h3 : Scoring.maxElement (K := ℚ) (.fin 30) [.fin 10] = .fin 30 := by decide +kernel
  unfold turnCountFilter
  rw [if_neg (by norm_num), h1]
  simp only [h2, h3, this]

/-- Passing every stage in turn. -/
def passAll : List (M → Option M) → M → Option M
  | [], m => some m
  | g :: gs, m => (g m).bind (passAll gs)

/-- **C13**: any sequence of stages each of which filters one by one keeps exactly the candidates that pass all of
them in turn. -/
theorem pipeline_filters (gs : List (M → Option M)) : ∀ (sts : List (Stage M K)),
    List.Forall₂ FiltersBy gs sts → FiltersBy (passAll gs) (runStages sts) := by
  induction gs with
  | nil =>
    intro sts h
    cases h
    intro l out ho
    simp only [runStages, Except.ok.injEq] at ho
    subst ho
    simp [passAll]
  | cons g gs ih =>
    intro sts h
    cases h with
    | cons h1 h2 =>
      rename_i st sts'
      intro l out ho
      simp only [runStages] at ho
      cases hs : st l with
      | error e => rw [hs] at ho; simp at ho
      | ok l' =>
        rw [hs] at ho
        have hp := ih _ h2 l' out ho
        refine hp.trans (((h1 l l' hs).filterMap _).trans ?_)
        rw [List.filterMap_filterMap]
        exact List.Perm.of_eq (by congr 1)

/-- A one-by-one test that leaves the candidate as it is. -/
def test (v : M → Bool) (m : M) : Option M := if v m then some m else none

theorem passAll_test (vs : List (M → Bool)) (m : M) :
    passAll (vs.map test) m = if vs.all (fun v => v m) then some m else none := by
  induction vs with
  | nil => rfl
  | cons v vs ih =>
    simp only [List.map_cons, passAll, test]
    by_cases hv : v m = true
    · simp [hv, ih]
    · simp [hv]

/-- **C13**: for filters that only test, the order in which they run does not change which candidates come out:
exactly those that pass all of them. -/
theorem order_irrelevant (vs ws : List (M → Bool)) (hvw : vs.Perm ws) (sts uts : List (Stage M K))
    (h1 : List.Forall₂ FiltersBy (vs.map test) sts) (h2 : List.Forall₂ FiltersBy (ws.map test) uts)
    (l out out' : List (M × K)) (ho : runStages sts l = .ok out) (ho' : runStages uts l = .ok out') :
    (out.map Prod.fst).Perm ((l.map Prod.fst).filter (fun m => vs.all (fun v => v m))) ∧
    (out.map Prod.fst).Perm (out'.map Prod.fst) := by
  have key : ∀ (us : List (M → Bool)) (st : List (Stage M K)) o, List.Forall₂ FiltersBy (us.map test) st →
      runStages st l = .ok o → (o.map Prod.fst).Perm ((l.map Prod.fst).filter (fun m => us.all (fun v => v m))) := by
    intro us st o hs hr
    refine (pipeline_filters _ _ hs l o hr).trans (List.Perm.of_eq ?_)
    rw [← List.filterMap_eq_filter]
    congr 1
    funext m
    rw [passAll_test]
    simp [Option.guard]
  have e : (fun m : M => vs.all (fun v => v m)) = fun m => ws.all (fun v => v m) := by
    funext m
    rw [Bool.eq_iff_iff, List.all_eq_true, List.all_eq_true]
    exact ⟨fun h v hv => h v (hvw.mem_iff.mpr hv), fun h v hv => h v (hvw.mem_iff.mp hv)⟩
  refine ⟨key vs sts out h1 ho, (key vs sts out h1 ho).trans ?_⟩
  rw [e]
  exact (key ws uts out' h2 ho').symm

example : FiltersBy (K := ℚ) (pass (fun m : Nat => (m + 1, .verdict (decide (m < 3)) (.fin (0 : ℚ)))) true)
    (gateFilter id false false (fun (_ : Unit) m => ((), m + 1, .verdict (decide (m < 3)) (.fin 0))) true true 1 ()) :=
  gate_filters (K := ℚ) id false false (fun (_ : Unit) m => ((), m + 1, .verdict (decide (m < 3)) (.fin 0)))
    (fun m : Nat => (m + 1, .verdict (decide (m < 3)) (.fin 0))) (fun _ _ => rfl) true true 1 ()

/-! ## C43: a zero weight never lets an infeasible core through -/

/-- **C43**: the candidates that survive a gating filter are the same for any two weights, in particular a zero
weight rejects what a positive one rejects. -/
theorem gate_weight_irrelevant (lg : K → K) (invert log : Bool) (ev : Evaluator S M K) (f : M → M × Eval K)
    (hf : ∀ s m, (ev s m).2 = f m) (wb sc sc' : Bool) (w w' : K) (s : S) (l out out' : List (M × K))
    (h : gateFilter lg invert log ev wb sc w s l = .ok out) (h' : gateFilter lg invert log ev wb sc' w' s l = .ok out') :
    (out.map Prod.fst).Perm (out'.map Prod.fst) :=
  (gate_filters lg invert log ev f hf wb sc w s l out h).trans
    (gate_filters lg invert log ev f hf wb sc' w' s l out' h').symm

/-- **C43**: at weight zero or below a gating filter leaves order and totals of the survivors as they were. -/
theorem gate_zero_weight (lg : K → K) (invert log : Bool) (ev : Evaluator S M K) (f : M → M × Eval K)
    (hf : ∀ s m, (ev s m).2 = f m) (wb sc : Bool) (w : K) (hw : w ≤ 0) (s : S) (l out : List (M × K))
    (h : gateFilter lg invert log ev wb sc w s l = .ok out) :
    out = l.filterMap (fun p => (pass f wb p.1).map (fun m => (m, p.2))) := by
  unfold gateFilter at h
  cases hc : evaluateAndCull ev wb s l with
  | error e => rw [hc] at h; simp at h
  | ok r =>
    obtain ⟨s', items, scores⟩ := r
    rw [hc] at h
    simp only at h
    rw [if_neg (fun hh => absurd hh.2 (not_lt.mpr hw))] at h
    simp only [Except.ok.injEq] at h
    rw [← h]
    exact (cull_stateless ev f hf wb s s' l items scores hc).1

/-- **C43** is false of the losses, minimum impedance, temperature and turn-count filters: at weight zero they pass
everything, the rejected ones too. -/
theorem optional_zero_weight_passes_all (lg : K → K) (invert log p : Bool) (ev : Evaluator S M K) (w : K) (hw : w ≤ 0)
    (s : S) (l : List (M × K)) :
    optionalFilter lg invert log ev p w s l = .ok l ∧ turnCountFilter ev w s l = .ok l := by
  simp [optionalFilter, turnCountFilter, hw]

/-- A candidate rejected at weight 1 goes through at weight 0. -/
theorem optional_weight_matters :
    optionalFilter (K := ℚ) id false false (fun (_ : Unit) (m : Nat) => ((), m, .verdict (decide (m ≠ 2)) (.fin 1)))
        false 1 () [(1, 0), (2, 0)] = .ok [(1, 1)] ∧
    optionalFilter (K := ℚ) id false false (fun (_ : Unit) (m : Nat) => ((), m, .verdict (decide (m ≠ 2)) (.fin 1)))
        false 0 () [(1, 0), (2, 0)] = .ok [(1, 0), (2, 0)] := by
  decide +kernel

/-- In the suppression pipelines a losses filter that rejects everything lets everything through. -/
theorem losses_all_or_some (losses : Stage M K) (l out : List (M × K)) (h : lossesOrAll losses l = .ok out) :
    (losses l = .ok out ∧ out ≠ []) ∨ (losses l = .ok [] ∧ out = l) := by
  unfold lossesOrAll at h
  cases hl : losses l with
  | error e => rw [hl] at h; simp at h
  | ok o =>
    rw [hl] at h
    simp only at h
    by_cases ho : o = []
    · rw [if_pos ho] at h
      simp only [Except.ok.injEq] at h
      exact Or.inr ⟨by rw [ho], h.symm⟩
    · rw [if_neg ho] at h
      simp only [Except.ok.injEq] at h
      exact Or.inl ⟨by rw [h], h ▸ ho⟩

/-! ## C14: ranked and bounded -/

/-- Specification of a ranked selection of at most `n` out of `results`: the head of a stable descending sort. -/
structure Ranked (n : Nat) (results out : List (R × K)) : Prop where
  bounded : out.length ≤ n
  sorted : out.Pairwise (fun a b => b.2 ≤ a.2)
  /-- the rest, none of which beats a returned one -/
  rest : ∃ dropped, (out ++ dropped).Perm results ∧ (∀ x ∈ out, ∀ y ∈ dropped, y.2 ≤ x.2) ∧
    (dropped ≠ [] → out.length = n) ∧
    /- ties keep the order of `results`: of two equal scores the first comes first -/
    ∀ a b, [a, b].Sublist results → a.2 = b.2 → [a, b].Sublist (out ++ dropped)

theorem rankAndCut_eq (n : Nat) (results : List (R × K)) :
    rankAndCut n results = (Scoring.sortDesc results).take n := by
  simp only [rankAndCut]
  by_cases h : n < (Scoring.sortDesc results).length
  · rw [if_pos h]
    congr 1
    omega
  · rw [if_neg h]
    exact (List.take_of_length_le (by omega)).symm

/-- **C14**: the end of the batched adviser is a ranked selection of what the batches returned. -/
theorem rankAndCut_ranked (n : Nat) (results : List (R × K)) : Ranked n results (rankAndCut n results) := by
  rw [rankAndCut_eq]
  have hs := Scoring.sortDesc_sorted results
  refine ⟨by simp [List.length_take], hs.sublist (List.take_sublist _ _),
    (Scoring.sortDesc results).drop n, ?_, ?_, ?_, ?_⟩
  · rw [List.take_append_drop]; exact Scoring.sortDesc_perm results
  · rw [← List.take_append_drop n (Scoring.sortDesc results)] at hs
    exact fun x hx y hy => (List.pairwise_append.mp hs).2.2 x hx y hy
  · intro hd
    rw [List.length_take]
    have : n < (Scoring.sortDesc results).length := by
      by_contra hc
      exact hd (List.drop_eq_nil_of_le (by omega))
    omega
  · intro a b hab he
    rw [List.take_append_drop]
    exact Scoring.sortDesc_stable results a b hab (le_of_eq he.symm)

/-- Running the per-batch adviser over a list of batches, with the object's state. -/
def runBatches {C : Type} (adviser : S → List C → S × List (R × K)) : S → List (List C) → List (R × K)
  | _, [] => []
  | s, b :: bs => (adviser s b).2 ++ runBatches adviser (adviser s b).1 bs

theorem batchLoop_spec {C : Type} (adviser : S → List C → S × List (R × K)) (cores : List C) (step : Nat)
    (hstep : 1 ≤ step) : ∀ (fuel i : Nat) (s : S), cores.length ≤ fuel + i →
    ∃ bs : List (List C), bs.flatten = cores.drop i ∧ (∀ b ∈ bs, b ≠ [] ∧ b.length ≤ step) ∧
      batchLoop adviser cores step fuel i s = some (runBatches adviser s bs) := by
  intro fuel
  induction fuel with
  | zero =>
    intro i s h
    refine ⟨[], ?_, by simp, ?_⟩
    · rw [List.drop_eq_nil_of_le (by omega)]; rfl
    · simp only [batchLoop]
      rw [if_neg (by omega)]; rfl
  | succ fuel ih =>
    intro i s h
    by_cases hi : i < cores.length
    · obtain ⟨bs, h1, h2, h3⟩ := ih (i + step)
        (adviser s ((cores.drop i).take (min cores.length (i + step) - i))).1 (by omega)
      refine ⟨(cores.drop i).take (min cores.length (i + step) - i) :: bs, ?_, ?_, ?_⟩
      · rw [List.flatten_cons, h1]
        rcases Nat.le_total cores.length (i + step) with hc | hc
        · rw [Nat.min_eq_left hc, List.drop_eq_nil_of_le hc, List.append_nil,
            List.take_of_length_le (by simp [List.length_drop])]
        · rw [Nat.min_eq_right hc, Nat.add_sub_cancel_left, ← List.drop_drop, List.take_append_drop]
      · intro b hb
        rcases List.mem_cons.mp hb with rfl | hb
        · constructor
          · rw [← List.length_pos_iff, List.length_take, List.length_drop]; omega
          · rw [List.length_take, List.length_drop]; omega
        · exact h2 b hb
      · simp only [batchLoop]
        rw [if_pos hi, h3]
        rfl
    · refine ⟨[], ?_, by simp, ?_⟩
      · rw [List.drop_eq_nil_of_le (by omega)]; rfl
      · simp only [batchLoop]
        rw [if_neg hi]; rfl

/-- **C14**: for every catalogue, every batch size of at least one and every per-batch adviser, the call finishes;
the catalogue is cut into consecutive non-empty batches of at most that size, and the answer is a ranked selection
of at most the requested number out of exactly what the batches returned, in catalogue order. -/
theorem batched_ranked {C : Type} (adviser : S → List C → S × List (R × K)) (cores : List C) (n step fuel : Nat)
    (hstep : 1 ≤ step) (hfuel : cores.length ≤ fuel) (s : S) :
    ∃ bs out, bs.flatten = cores ∧ (∀ b ∈ bs, b ≠ [] ∧ b.length ≤ step) ∧
      advisedBatched adviser cores n step fuel s = some out ∧ Ranked n (runBatches adviser s bs) out := by
  obtain ⟨bs, h1, h2, h3⟩ := batchLoop_spec adviser cores step hstep fuel 0 s (by omega)
  refine ⟨bs, rankAndCut n (runBatches adviser s bs), by simpa using h1, h2, ?_, rankAndCut_ranked _ _⟩
  simp [advisedBatched, h3]

/-- With batch size zero the call never finishes on a non-empty catalogue. -/
theorem batch_zero_never_finishes {C : Type} (adviser : S → List C → S × List (R × K)) (c : C) (cores : List C)
    (n fuel : Nat) (s : S) : advisedBatched adviser (c :: cores) n 0 fuel s = none := by
  suffices h : ∀ fuel s, batchLoop adviser (c :: cores) 0 fuel 0 s = none by simp [advisedBatched, h]
  intro fuel
  induction fuel with
  | zero => intro s; simp [batchLoop]
  | succ fuel ih => intro s; simp [batchLoop, ih]

example : advisedBatched (K := ℚ) (fun (s : Unit) (b : List Nat) => (s, b.map (fun c => (c, ((c % 3 : Nat) : ℚ)))))
    [1, 2, 3, 4, 5] 3 2 5 () = some [(2, 2), (5, 2), (1, 1)] := by
  simp only [advisedBatched, funext (rankAndCut_eq 3), Scoring.sortDesc_eq_insSort]
  decide +kernel

/-! ### Post-processing and cutting -/

/-- What becomes of one candidate: prepared, then post-processed. -/
def feasible (prep : M → Option M) (post : M → Option R) (m : M) : Option R := (prep m).bind post

/-- Keep the first of each shape. -/
def firstOfShape [DecidableEq σ] (shape : M → σ) : List (M × K) → List (M × K)
  | [] => []
  | p :: l => p :: (firstOfShape shape l).filter (fun q => shape q.1 ≠ shape p.1)

/-- The first `n` candidates in the given order that can be built, and, when asked for, the first of each shape
only. -/
def bestBuildable [DecidableEq σ] (unique : Bool) (shape : M → σ) (prep : M → Option M) (post : M → Option R) (n : Nat)
    (l : List (M × K)) : List (M × K) :=
  let ok := l.filter (fun p => (feasible prep post p.1).isSome)
  (if unique then firstOfShape shape ok else ok).take n

theorem firstOfShape_comm [DecidableEq σ] (shape : M → σ) (v : σ → Bool) (l : List (M × K)) :
    firstOfShape shape (l.filter (fun q => v (shape q.1))) = (firstOfShape shape l).filter (fun q => v (shape q.1)) := by
  induction l with
  | nil => rfl
  | cons p l ih =>
    by_cases hv : v (shape p.1) = true
    · simp only [List.filter_cons, hv, if_true, firstOfShape, ih, List.filter_filter]
      congr 2
      funext q
      exact Bool.and_comm _ _
    · simp only [List.filter_cons, hv, if_false, firstOfShape, ih, List.filter_filter, Bool.false_eq_true]
      congr 1
      funext q
      by_cases hq : v (shape q.1) = true
      · have : shape q.1 ≠ shape p.1 := fun h => hv (h ▸ hq)
        simp [hq, this]
      · simp [hq]

theorem postLoop_spec [DecidableEq σ] (unique : Bool) (shape : M → σ) (prep : M → Option M) (post : M → Option R)
    (n : Nat) (hprep : ∀ m, prep m ≠ none) (l : List (M × K)) : ∀ (acc : List (R × K)) (used : List σ),
    postLoop unique shape prep post n l acc used = some (acc ++
      ((bestBuildable unique shape prep post (n - acc.length)
          (l.filter (fun p => !(unique && decide (shape p.1 ∈ used))))).filterMap
        (fun p => (feasible prep post p.1).map (fun r => (r, p.2))))) := by
  induction l with
  | nil =>
    intro acc used
    cases unique <;> simp [postLoop, bestBuildable, firstOfShape]
  | cons p l ih =>
    obtain ⟨m, t⟩ := p
    intro acc used
    simp only [postLoop]
    by_cases hn : n ≤ acc.length
    · rw [if_pos hn]
      have : n - acc.length = 0 := by omega
      simp [this, bestBuildable]
    · rw [if_neg hn]
      by_cases hu : unique = true ∧ shape m ∈ used
      · rw [if_pos hu, ih]
        simp [hu.1, hu.2]
      · rw [if_neg hu]
        cases hp : prep m with
        | none => exact absurd hp (hprep m)
        | some m' =>
          simp only
          have hkeep : (!(unique && decide (shape m ∈ used))) = true := by
            simp only [Bool.not_eq_true', Bool.and_eq_false_iff, decide_eq_false_iff_not]
            by_cases h1 : unique = true
            · right; exact fun h => hu ⟨h1, h⟩
            · left; simpa using h1
          cases hq : post m' with
          | none =>
            simp only
            rw [ih]
            have hf : feasible prep post m = none := by simp [feasible, hp, hq]
            simp only [List.filter_cons, hkeep, if_true, bestBuildable, hf, Option.isSome_none, Bool.false_eq_true,
              if_false]
          | some r =>
            simp only
            rw [ih]
            have hf : feasible prep post m = some r := by simp [feasible, hp, hq]
            obtain ⟨k, hk⟩ : ∃ k, n - acc.length = k + 1 := ⟨n - acc.length - 1, by omega⟩
            have hk' : n - (acc ++ [(r, t)]).length = k := by simp; omega
            rw [hk, hk']
            simp only [List.filter_cons, hkeep, if_true, bestBuildable, hf, Option.isSome_some]
            cases unique with
            | false =>
              simp [hf]
            | true =>
              simp only [if_true, Bool.true_and]
              rw [firstOfShape, List.take_succ_cons, List.filterMap_cons]
              simp only [hf, Option.map_some, List.append_assoc, List.singleton_append]
              rw [← firstOfShape_comm shape (fun s => decide (s ≠ shape m)), List.filter_filter, List.filter_filter,
                List.filter_filter]
              congr 6
              refine List.filter_congr (fun q _ => ?_)
              simp only [List.mem_append, List.mem_singleton, decide_not]
              by_cases h1 : shape q.1 ∈ used <;> by_cases h2 : shape q.1 = shape m <;> simp [h1, h2]

/-- **C14**: post-processing returns, in the given order, exactly the first `n` candidates that can be built (and
with unique shapes the first of each shape): a candidate that cannot be built is replaced by the next one. -/
theorem postProcess_spec [DecidableEq σ] (unique : Bool) (shape : M → σ) (prep : M → Option M) (post : M → Option R)
    (n : Nat) (hprep : ∀ m, prep m ≠ none) (l : List (M × K)) :
    postProcessAndCut unique shape prep post n l = some ((bestBuildable unique shape prep post n l).filterMap
      (fun p => (feasible prep post p.1).map (fun r => (r, p.2)))) := by
  rw [postProcessAndCut, postLoop_spec unique shape prep post n hprep]
  simp

theorem firstOfShape_props [DecidableEq σ] (shape : M → σ) (l : List (M × K)) :
    (firstOfShape shape l).Sublist l ∧ ((firstOfShape shape l).map (fun p => shape p.1)).Nodup ∧
    ∀ p ∈ l, ∃ q ∈ firstOfShape shape l, shape q.1 = shape p.1 := by
  induction l with
  | nil => simp [firstOfShape]
  | cons p l ih =>
    obtain ⟨h1, h2, h3⟩ := ih
    simp only [firstOfShape]
    refine ⟨(List.filter_sublist.trans h1).cons_cons p, ?_, ?_⟩
    · simp only [List.map_cons, List.nodup_cons, List.mem_map]
      refine ⟨?_, h2.sublist (List.filter_sublist.map _)⟩
      rintro ⟨q, hq, he⟩
      have := (List.mem_filter.mp hq).2
      simp at this
      exact this he
    · intro q hq
      rcases List.mem_cons.mp hq with rfl | hq
      · exact ⟨q, by simp, rfl⟩
      · by_cases hs : shape q.1 = shape p.1
        · exact ⟨p, by simp, hs.symm⟩
        · obtain ⟨r, hr, he⟩ := h3 q hq
          refine ⟨r, List.mem_cons_of_mem _ (List.mem_filter.mpr ⟨hr, ?_⟩), he⟩
          simpa [he] using hs

/-- **C14**: the selection is a sublist of at most `n` buildable candidates; sorted candidates give sorted results;
with unique shapes no shape occurs twice. -/
theorem bestBuildable_props [DecidableEq σ] (unique : Bool) (shape : M → σ) (prep : M → Option M) (post : M → Option R)
    (n : Nat) (l : List (M × K)) :
    (bestBuildable unique shape prep post n l).Sublist l ∧ (bestBuildable unique shape prep post n l).length ≤ n ∧
    (∀ p ∈ bestBuildable unique shape prep post n l, (feasible prep post p.1).isSome = true) ∧
    (unique = true → ((bestBuildable unique shape prep post n l).map (fun p => shape p.1)).Nodup) ∧
    (l.Pairwise (fun a b => b.2 ≤ a.2) →
      (bestBuildable unique shape prep post n l).Pairwise (fun a b => b.2 ≤ a.2)) := by
  have hsub : (bestBuildable unique shape prep post n l).Sublist
      (l.filter (fun p => (feasible prep post p.1).isSome)) := by
    unfold bestBuildable
    refine (List.take_sublist _ _).trans ?_
    cases unique with
    | false => exact List.Sublist.refl _
    | true => exact (firstOfShape_props shape _).1
  refine ⟨hsub.trans List.filter_sublist, by simp [bestBuildable, List.length_take], ?_, ?_, ?_⟩
  · intro p hp
    have := List.mem_filter.mp (hsub.subset hp)
    simpa using this.2
  · intro hu
    subst hu
    simp only [bestBuildable, if_true]
    exact (firstOfShape_props shape _).2.1.sublist ((List.take_sublist _ _).map _)
  · intro hl
    exact hl.sublist (hsub.trans List.filter_sublist)

/-- **C14** is false for standard cores: ferrite and powder candidates are put one list after the other without
sorting again, so a worse core can come before a better one, and the better one can be cut. -/
theorem standard_cores_not_ranked :
    combineAndCut (σ := Nat) (K := ℚ) false id some (some : Nat → Option Nat) 2 [(1, 3), (2, 1)] [(3, 9)] =
      some [(1, 3), (2, 1)] := by decide +kernel

/-- What holds for standard cores: ranked when no powder candidate beats a ferrite one. -/
theorem standard_cores_ranked_partial [DecidableEq σ] (unique : Bool) (shape : M → σ) (prep : M → Option M)
    (post : M → Option R) (n : Nat) (hprep : ∀ m, prep m ≠ none) (ferrite powder : List (M × K))
    (hf : ferrite.Pairwise (fun a b => b.2 ≤ a.2)) (hp : powder.Pairwise (fun a b => b.2 ≤ a.2))
    (hfp : ∀ a ∈ ferrite, ∀ b ∈ powder, b.2 ≤ a.2) :
    ∃ out, combineAndCut unique shape prep post n ferrite powder = some out ∧ out.length ≤ n ∧
      out.Pairwise (fun a b => b.2 ≤ a.2) := by
  have hs : (ferrite ++ powder).Pairwise (fun a b : M × K => b.2 ≤ a.2) := List.pairwise_append.mpr ⟨hf, hp, hfp⟩
  have main : ∃ out, postProcessAndCut unique shape prep post n (ferrite ++ powder) = some out ∧ out.length ≤ n ∧
      out.Pairwise (fun a b => b.2 ≤ a.2) := by
    refine ⟨_, postProcess_spec unique shape prep post n hprep _, ?_, ?_⟩
    · exact le_trans (List.length_filterMap_le _ _) (bestBuildable_props unique shape prep post n _).2.1
    · have hb := (bestBuildable_props unique shape prep post n _).2.2.2.2 hs
      refine List.Pairwise.filterMap _ ?_ hb
      intro a b hab c hc d hd
      obtain ⟨r, _, rfl⟩ := Option.map_eq_some_iff.mp hc
      obtain ⟨r', _, rfl⟩ := Option.map_eq_some_iff.mp hd
      exact hab
  unfold combineAndCut
  cases hl : ferrite ++ powder with
  | nil => exact ⟨[], rfl, by simp, List.Pairwise.nil⟩
  | cons q qs => rw [hl] at main; exact main

/-- Unique shapes are unique per batch only: merged batches can return one shape twice. -/
theorem batches_repeat_shapes :
    advisedBatched (K := ℚ) (fun (s : Unit) (b : List (Nat × ℚ)) =>
        (s, (postProcessAndCut (M := Nat × ℚ) (σ := Nat) true Prod.fst some some 5
          (b.map (fun c => (c, c.2)))).getD []))
      [(7, 3), (7, 2), (7, 1)] 5 2 3 () = some [((7, 3), 3), ((7, 1), 1)] := by
  simp only [advisedBatched, funext (rankAndCut_eq 5), Scoring.sortDesc_eq_insSort]
  decide +kernel

example : postProcessAndCut (σ := Nat) (K := ℚ) true (· % 10) some (fun m => if m = 12 then none else some m) 2
    [(12, 9), (2, 8), (22, 7), (3, 5), (4, 4)] = some [(2, 8), (3, 5)] := by decide +kernel

/-! ## C44: every core returned meets the saturation margin, or is marked -/

/-- Every candidate has `P`. -/
def AllHave (P : M → Prop) (l : List (M × K)) : Prop := ∀ p ∈ l, P p.1

/-- A stage that never makes `P` false and invents nothing. -/
def Preserves (P : M → Prop) (st : Stage M K) : Prop := ∀ l out, st l = .ok out → AllHave P l → AllHave P out

theorem preserves_stages (P : M → Prop) : ∀ sts : List (Stage M K), (∀ st ∈ sts, Preserves P st) →
    Preserves P (runStages sts) := by
  intro sts
  induction sts with
  | nil =>
    intro _ l out h hl
    simp only [runStages, Except.ok.injEq] at h
    exact h ▸ hl
  | cons st sts ih =>
    intro hs l out h hl
    simp only [runStages] at h
    cases h1 : st l with
    | error e => rw [h1] at h; simp at h
    | ok l' =>
      rw [h1] at h
      exact ih (fun t ht => hs t (by simp [ht])) l' out h (hs st (by simp) l l' h1 hl)

theorem preserves_prune (P : M → Prop) (e : Bool) (cap : Nat) : Preserves P (prune (K := K) e cap) := by
  intro l out h hl
  simp only [prune, Except.ok.injEq] at h
  subst h
  split
  · exact fun p hp => hl p (List.mem_of_mem_take hp)
  · exact hl

theorem establishes_mid (P : M → Prop) (pre post : List (Stage M K)) (st : Stage M K)
    (hst : ∀ l out, st l = .ok out → AllHave P out) (hpost : ∀ t ∈ post, Preserves P t) (l out : List (M × K))
    (h : runStages (pre ++ st :: post) l = .ok out) : AllHave P out := by
  rw [runStages_append] at h
  cases h1 : runStages pre l with
  | error e => rw [h1] at h; simp at h
  | ok l1 =>
    rw [h1] at h
    simp only [runStages] at h
    cases h2 : st l1 with
    | error e => rw [h2] at h; simp at h
    | ok l2 =>
      rw [h2] at h
      exact preserves_stages P post hpost l2 out h (hst l1 l2 h2)

/-- The stages after the saturation filter keep what it established. -/
structure LaterStagesKeep (P : M → Prop) (st : PowerStages M K) : Prop where
  gaps : Preserves P st.gaps
  cost : Preserves P st.cost
  dimensions : Preserves P st.dimensions
  losses : Preserves P st.losses
  temperature : Preserves P st.temperature

/-- **C44**: for every catalogue, margin, pruning option and any stages after saturation that keep its verdict, each
core returned either passed the saturation filter at the configured margin, or passed it at margin one and carries
the mark; a marked core appears only when the margin is above one and no core of the catalogue that passed area,
energy and turns met it. -/
theorem margin_or_marked (st : PowerStages M K) (Sat : K → M → Prop)
    (hsat : ∀ m l out, st.saturation m l = .ok out → AllHave (Sat m) out)
    (hkeep : ∀ m, LaterStagesKeep (Sat m) st) (margin : K) (pruning : Bool) (cap preLossCap : Nat) (tag : M → M)
    (htail : retryTail st [] = .ok []) (l out : List (M × K))
    (h : availablePower st margin pruning cap preLossCap tag l = .ok out) :
    AllHave (Sat margin) out ∨
    (1 < margin ∧ retryHead st margin l = .ok [] ∧ AllHave (fun m => ∃ m0, m = tag m0 ∧ Sat 1 m0) out) := by
  have hT : ∀ m, ∀ l' o, retryTail st l' = .ok o → AllHave (Sat m) l' → AllHave (Sat m) o := by
    intro m l' o ho hl'
    refine preserves_stages (Sat m) _ ?_ l' o ho hl'
    intro t ht
    simp only [List.mem_cons, List.not_mem_nil, or_false] at ht
    rcases ht with rfl | rfl | rfl | rfl | rfl
    exacts [(hkeep m).gaps, (hkeep m).cost, (hkeep m).dimensions, (hkeep m).losses, (hkeep m).temperature]
  have hH : ∀ m o, retryHead st m l = .ok o → AllHave (Sat m) o := fun m o ho =>
    establishes_mid (Sat m) [st.area, st.energy, st.turns] [] (st.saturation m) (hsat m) (by simp) l o ho
  unfold availablePower at h
  cases h1 : firstAttempt st margin pruning cap preLossCap l with
  | error e => rw [h1] at h; simp at h
  | ok o =>
    rw [h1] at h
    cases o with
    | cons p r =>
      simp only [Except.ok.injEq] at h
      subst h
      left
      refine establishes_mid (Sat margin) [st.area, prune pruning cap, st.energy, st.turns]
        [st.gaps, st.cost, st.dimensions, prune pruning preLossCap, st.losses, st.temperature]
        (st.saturation margin) (hsat margin) ?_ l _ h1
      intro t ht
      simp only [List.mem_cons, List.not_mem_nil, or_false] at ht
      rcases ht with rfl | rfl | rfl | rfl | rfl | rfl
      exacts [(hkeep _).gaps, (hkeep _).cost, (hkeep _).dimensions, preserves_prune _ _ _, (hkeep _).losses,
        (hkeep _).temperature]
    | nil =>
      simp only at h
      cases h2 : retryHead st margin l with
      | error e => rw [h2] at h; simp at h
      | ok o2 =>
        rw [h2] at h
        cases o2 with
        | cons p r => exact Or.inl (hT margin _ _ h (hH margin _ h2))
        | nil =>
          simp only at h
          by_cases hm : 1 < margin
          · rw [if_pos hm] at h
            cases h3 : retryHead st 1 l with
            | error e => rw [h3] at h; simp at h
            | ok l' =>
              rw [h3] at h
              simp only at h
              cases h4 : retryTail st l' with
              | error e => rw [h4] at h; simp at h
              | ok o4 =>
                rw [h4] at h
                simp only [Except.ok.injEq] at h
                subst h
                by_cases hl' : l' = []
                · subst hl'
                  rw [htail] at h4
                  simp only [Except.ok.injEq] at h4
                  subst h4
                  left
                  simp [AllHave]
                · right
                  refine ⟨hm, rfl, ?_⟩
                  rw [if_neg hl']
                  intro q hq
                  obtain ⟨q0, hq0, rfl⟩ := List.mem_map.mp hq
                  exact ⟨q0.1, rfl, hT 1 _ _ h4 (hH 1 _ h3) q0 hq0⟩
          · rw [if_neg hm, htail] at h
            simp only [Except.ok.injEq] at h
            left
            rw [← h]
            simp [AllHave]

/-- **C44**: pruning never turns a non-empty answer into an empty one: if the stages without pruning leave a core,
a core is returned. -/
theorem pruning_never_empties (st : PowerStages M K) (margin : K) (pruning : Bool) (cap preLossCap : Nat) (tag : M → M)
    (htail : retryTail st [] = .ok []) (l full out : List (M × K))
    (hfull : runStages [st.area, st.energy, st.turns, st.saturation margin, st.gaps, st.cost, st.dimensions, st.losses,
      st.temperature] l = .ok full) (hne : full ≠ [])
    (h : availablePower st margin pruning cap preLossCap tag l = .ok out) : out ≠ [] := by
  have hsplit : (match retryHead st margin l with | .error e => (.error e : Except Err (List (M × K))) | .ok l' => retryTail st l') = .ok full := by
    rw [← hfull]
    exact (runStages_append [st.area, st.energy, st.turns, st.saturation margin]
      [st.gaps, st.cost, st.dimensions, st.losses, st.temperature] l).symm
  unfold availablePower at h
  cases h1 : firstAttempt st margin pruning cap preLossCap l with
  | error e => rw [h1] at h; simp at h
  | ok o =>
    rw [h1] at h
    cases o with
    | cons p r =>
      simp only [Except.ok.injEq] at h
      subst h
      simp
    | nil =>
      simp only at h
      cases h2 : retryHead st margin l with
      | error e => rw [h2] at h; simp at h
      | ok o2 =>
        rw [h2] at h hsplit
        cases o2 with
        | cons p r =>
          simp only at h hsplit
          rw [h] at hsplit
          simp only [Except.ok.injEq] at hsplit
          exact hsplit ▸ hne
        | nil =>
          simp only [htail, Except.ok.injEq] at hsplit
          exact absurd hsplit.symm hne

/-- Stages for the examples: saturation keeps cores whose size is at least the margin, pruning to one core keeps the
wrong one. -/
def demoStages : PowerStages Nat ℚ where
  area := .ok
  energy := .ok
  turns := .ok
  saturation := fun m l => .ok (l.filter (fun p => decide (m ≤ (p.1 : ℚ))))
  gaps := .ok
  cost := .ok
  dimensions := .ok
  losses := .ok
  temperature := .ok

example : retryTail demoStages [] = .ok [] ∧
    availablePower demoStages 3 true 1 1 (· + 100) [(2, 9), (4, 1), (5, 0)] = .ok [(4, 1), (5, 0)] ∧
    availablePower demoStages 7 true 1 1 (· + 100) [(0, 9), (4, 1), (5, 0)] = .ok [(104, 1), (105, 0)] := by
  decide +kernel

example : (∀ m l out, demoStages.saturation m l = .ok out → AllHave (fun c : Nat => m ≤ (c : ℚ)) out) ∧
    LaterStagesKeep (fun c : Nat => (3 : ℚ) ≤ (c : ℚ)) demoStages := by
  refine ⟨?_, ?_⟩
  · intro m l out h p hp
    simp only [demoStages, Except.ok.injEq] at h
    subst h
    simpa using (List.mem_filter.mp hp).2
  · constructor <;> · intro l out h hl
                      simp only [demoStages, Except.ok.injEq] at h
                      exact h ▸ hl

/-! ## C45: the gap search stays in its window and closes in on the best gap -/

/-- `f` falls until `x` and rises after it. -/
structure Unimodal (f : K → K) (x : K) : Prop where
  falls : ∀ u v, u < v → v ≤ x → f v < f u
  rises : ∀ u v, x ≤ u → u < v → f u < f v

theorem goldenLoop_spec (f : K → Option K) (rho eps : K) (h0 : 0 < rho) (h2 : rho < 1 / 2)
    (hgold : rho * rho - 3 * rho + 1 = 0) (heps : 0 ≤ eps) : ∀ (fuel : Nat) (a b fc fd : K) (r : K × K),
    a ≤ b → f (a + rho * (b - a)) = some fc → f (b - rho * (b - a)) = some fd →
    goldenLoop f rho eps fuel a b (a + rho * (b - a)) (b - rho * (b - a)) fc fd = some r →
    a ≤ r.1 ∧ r.1 ≤ r.2 ∧ r.2 ≤ b ∧ (r.2 - r.1 ≤ eps ∨ r.2 - r.1 = (1 - rho) ^ fuel * (b - a)) ∧
    (∀ g x, (∀ u v, f u = some v → g u = v) → Unimodal g x → a ≤ x → x ≤ b → r.1 ≤ x ∧ x ≤ r.2) := by
  intro fuel
  induction fuel with
  | zero =>
    intro a b fc fd r hab _ _ h
    simp only [goldenLoop, Option.some.injEq] at h
    subst h
    exact ⟨le_refl _, hab, le_refl _, Or.inr (by simp), fun _ _ _ _ h1 h2 => ⟨h1, h2⟩⟩
  | succ fuel ih =>
    intro a b fc fd r hab hfc hfd h
    simp only [goldenLoop] at h
    by_cases he : eps < b - a
    · rw [if_pos he] at h
      have hlt : a < b := by linarith
      have hw : 0 < b - a := by linarith
      have hrw : 0 < rho * (b - a) := mul_pos h0 hw
      have hrw2 : rho * (b - a) < 1 / 2 * (b - a) := mul_lt_mul_of_pos_right h2 hw
      have hcd : a + rho * (b - a) < b - rho * (b - a) := by linarith
      by_cases hf : fc < fd
      · rw [if_pos hf] at h
        have hd : a + rho * (b - a) =
            (b - rho * (b - a)) - rho * ((b - rho * (b - a)) - a) := by linear_combination (b - a) * hgold * (-1)
        cases hc' : f (a + rho * (b - rho * (b - a) - a)) with
        | none => rw [hc'] at h; simp at h
        | some fc' =>
          rw [hc'] at h
          simp only at h
          have hgd : f ((b - rho * (b - a)) - rho * ((b - rho * (b - a)) - a)) = some fc := by rw [← hd]; exact hfc
          have h' : goldenLoop f rho eps fuel a (b - rho * (b - a)) (a + rho * (b - rho * (b - a) - a))
              ((b - rho * (b - a)) - rho * ((b - rho * (b - a)) - a)) fc' fc = some r := by rw [← hd]; exact h
          obtain ⟨g1, g2, g3, g4, g5⟩ := ih a (b - rho * (b - a)) fc' fc r (by linarith) hc' hgd h'
          refine ⟨g1, g2, by linarith, ?_, ?_⟩
          · rcases g4 with g4 | g4
            · exact Or.inl g4
            · right; rw [g4, pow_succ]; ring
          · intro g x hg hu hax hxb
            refine g5 g x hg hu hax ?_
            by_contra hx
            push Not at hx
            have := hu.falls _ _ hcd (le_of_lt hx)
            rw [hg _ _ hfc, hg _ _ hfd] at this
            exact absurd hf (not_lt.mpr (le_of_lt this))
      · rw [if_neg hf] at h
        have hc : b - rho * (b - a) =
            (a + rho * (b - a)) + rho * (b - (a + rho * (b - a))) := by linear_combination (b - a) * hgold
        cases hd' : f (b - rho * (b - (a + rho * (b - a)))) with
        | none => rw [hd'] at h; simp at h
        | some fd' =>
          rw [hd'] at h
          simp only at h
          have hgc : f ((a + rho * (b - a)) + rho * (b - (a + rho * (b - a)))) = some fd := by rw [← hc]; exact hfd
          have h' : goldenLoop f rho eps fuel (a + rho * (b - a)) b
              ((a + rho * (b - a)) + rho * (b - (a + rho * (b - a)))) (b - rho * (b - (a + rho * (b - a)))) fd fd' =
              some r := by rw [← hc]; exact h
          obtain ⟨g1, g2, g3, g4, g5⟩ := ih (a + rho * (b - a)) b fd fd' r (by linarith) hgc hd' h'
          refine ⟨by linarith, g2, g3, ?_, ?_⟩
          · rcases g4 with g4 | g4
            · exact Or.inl g4
            · right; rw [g4, pow_succ]; ring
          · intro g x hg hu hax hxb
            refine g5 g x hg hu ?_ hxb
            by_contra hx
            push Not at hx
            have := hu.rises _ _ (le_of_lt hx) hcd
            rw [hg _ _ hfc, hg _ _ hfd] at this
            exact hf this
    · rw [if_neg he] at h
      simp only [Option.some.injEq] at h
      subst h
      exact ⟨le_refl _, hab, le_refl _, Or.inl (not_lt.mp he), fun _ _ _ _ h1 h2 => ⟨h1, h2⟩⟩

/-- **C45**: with the golden ratio, whatever the losses look like, the gap found is in the window; and when the
losses fall up to some gap and rise after it, the gap found is at most half the tolerance, or half the window shrunk
`rounds` times, away from the best one. -/
theorem golden_close (f : K → Option K) (rho eps : K) (rounds : Nat) (h0 : 0 < rho) (h2 : rho < 1 / 2)
    (hgold : rho * rho - 3 * rho + 1 = 0) (heps : 0 ≤ eps) (mn mx out : K) (hmm : mn ≤ mx)
    (h : golden f rho eps rounds mn mx = some out) :
    mn ≤ out ∧ out ≤ mx ∧
    ∀ g x, (∀ u v, f u = some v → g u = v) → Unimodal g x → mn ≤ x → x ≤ mx →
      |out - x| ≤ max eps ((1 - rho) ^ rounds * (mx - mn)) / 2 := by
  unfold golden at h
  simp only at h
  cases hc : f (mn + rho * (mx - mn)) with
  | none => rw [hc] at h; simp at h
  | some fc =>
    cases hd : f (mx - rho * (mx - mn)) with
    | none => rw [hc, hd] at h; simp at h
    | some fd =>
      rw [hc, hd] at h
      simp only [Option.map_eq_some_iff] at h
      obtain ⟨r, hr, rfl⟩ := h
      obtain ⟨g1, g2, g3, g4, g5⟩ := goldenLoop_spec f rho eps h0 h2 hgold heps rounds mn mx fc fd r hmm hc hd hr
      refine ⟨by linarith, by linarith, ?_⟩
      intro g x hg hu h1 h2'
      obtain ⟨k1, k2⟩ := g5 g x hg hu h1 h2'
      have hw : r.2 - r.1 ≤ max eps ((1 - rho) ^ rounds * (mx - mn)) := by
        rcases g4 with g4 | g4
        · exact le_trans g4 (le_max_left _ _)
        · rw [g4]; exact le_max_right _ _
      rw [abs_le]
      constructor <;> linarith

theorem goldenLoop_total (f : K → Option K) (rho eps : K) (h0 : 0 < rho) (h2 : rho < 1 / 2)
    (hgold : rho * rho - 3 * rho + 1 = 0) : ∀ (fuel : Nat) (a b fc fd : K), a ≤ b →
    (∀ u, a ≤ u → u ≤ b → (f u).isSome = true) →
    (goldenLoop f rho eps fuel a b (a + rho * (b - a)) (b - rho * (b - a)) fc fd).isSome = true := by
  intro fuel
  induction fuel with
  | zero => intros; rfl
  | succ fuel ih =>
    intro a b fc fd hab hf
    simp only [goldenLoop]
    by_cases he : eps < b - a
    · rw [if_pos he]
      have hw : 0 ≤ b - a := by linarith
      have hrw : 0 ≤ rho * (b - a) := mul_nonneg h0.le hw
      have hrw2 : rho * (b - a) ≤ 1 / 2 * (b - a) := mul_le_mul_of_nonneg_right h2.le hw
      by_cases hc : fc < fd
      · rw [if_pos hc]
        have hd : a + rho * (b - a) =
            (b - rho * (b - a)) - rho * ((b - rho * (b - a)) - a) := by linear_combination (b - a) * hgold * (-1)
        have h3 : 0 ≤ rho * (b - rho * (b - a) - a) := mul_nonneg h0.le (by linarith)
        have h4 : rho * (b - rho * (b - a) - a) ≤ 1 / 2 * (b - rho * (b - a) - a) :=
          mul_le_mul_of_nonneg_right h2.le (by linarith)
        cases hx : f (a + rho * (b - rho * (b - a) - a)) with
        | none =>
          have := hf _ (by linarith) (by linarith : a + rho * (b - rho * (b - a) - a) ≤ b)
          rw [hx] at this; simp at this
        | some v =>
          have := ih a (b - rho * (b - a)) v fc (by linarith) (fun u hu hu' => hf u hu (by linarith))
          rw [← hd] at this
          exact this
      · rw [if_neg hc]
        have hcc : b - rho * (b - a) =
            (a + rho * (b - a)) + rho * (b - (a + rho * (b - a))) := by linear_combination (b - a) * hgold
        have h3 : 0 ≤ rho * (b - (a + rho * (b - a))) := mul_nonneg h0.le (by linarith)
        have h4 : rho * (b - (a + rho * (b - a))) ≤ 1 / 2 * (b - (a + rho * (b - a))) :=
          mul_le_mul_of_nonneg_right h2.le (by linarith)
        cases hx : f (b - rho * (b - (a + rho * (b - a)))) with
        | none =>
          have := hf (b - rho * (b - (a + rho * (b - a)))) (by linarith) (by linarith)
          rw [hx] at this; simp at this
        | some v =>
          have := ih (a + rho * (b - a)) b fd v (by linarith) (fun u hu hu' => hf u (by linarith) hu')
          rw [← hcc] at this
          exact this
    · rw [if_neg he]; rfl

/-- **C45**: the search throws only when a loss evaluation inside the window throws. -/
theorem golden_total (f : K → Option K) (rho eps : K) (rounds : Nat) (h0 : 0 < rho) (h2 : rho < 1 / 2)
    (hgold : rho * rho - 3 * rho + 1 = 0) (mn mx : K) (hmm : mn ≤ mx)
    (hf : ∀ u, mn ≤ u → u ≤ mx → (f u).isSome = true) : (golden f rho eps rounds mn mx).isSome = true := by
  have hw : 0 ≤ mx - mn := by linarith
  have hrw : 0 ≤ rho * (mx - mn) := mul_nonneg h0.le hw
  have hrw2 : rho * (mx - mn) ≤ 1 / 2 * (mx - mn) := mul_le_mul_of_nonneg_right h2.le hw
  unfold golden
  simp only
  obtain ⟨fc, hc⟩ := Option.isSome_iff_exists.mp (hf (mn + rho * (mx - mn)) (by linarith) (by linarith))
  obtain ⟨fd, hd⟩ := Option.isSome_iff_exists.mp (hf (mx - rho * (mx - mn)) (by linarith) (by linarith))
  rw [hc, hd]
  simp only [Option.isSome_map]
  exact goldenLoop_total f rho eps h0 h2 hgold rounds mn mx fc fd hmm hf

/-- The golden ratio meets the hypotheses. -/
example : ∃ rho : ℝ, 0 < rho ∧ rho < 1 / 2 ∧ rho * rho - 3 * rho + 1 = 0 := by
  have h5 : Real.sqrt 5 * Real.sqrt 5 = 5 := Real.mul_self_sqrt (by norm_num)
  have hp : 0 ≤ Real.sqrt 5 := Real.sqrt_nonneg 5
  refine ⟨(3 - Real.sqrt 5) / 2, ?_, ?_, ?_⟩
  · nlinarith
  · nlinarith
  · linear_combination h5 / 4

example : Unimodal (fun x : ℚ => (x - 2) * (x - 2)) 2 := by
  constructor
  · intro u v h1 h2; nlinarith
  · intro u v h1 h2; nlinarith

/-- The gap window as a specification: the gap used is at least what energy and saturation ask for and at most the
reported maximum. -/
structure InWindow (energyGap saturationGap : K) (w : GapWindow K) : Prop where
  energy : energyGap ≤ w.effectiveMin
  saturation : saturationGap ≤ w.effectiveMin
  low : w.effectiveMin ≤ w.optimal
  high : w.optimal ≤ w.maxGap

/-- **C45**: for every set of limits with a non-negative energy or saturation gap, both strategies, and whatever the
losses (even when evaluating them throws), the gap used is in the window. -/
theorem gap_in_window (strategy : Bool) (f : K → Option K) (rho eps : K) (rounds : Nat) (h0 : 0 < rho) (h2 : rho < 1 / 2)
    (hgold : rho * rho - 3 * rho + 1 = 0) (heps : 0 ≤ eps) (energyGap columnGap fringingGap saturationGap : K)
    (hpos : 0 ≤ max energyGap saturationGap) :
    InWindow energyGap saturationGap
      (gapConstraints strategy (golden f rho eps rounds) energyGap columnGap fringingGap saturationGap) := by
  unfold gapConstraints
  simp only
  set mx0 := (if min columnGap fringingGap < energyGap then energyGap else min columnGap fringingGap)
  set eff := max energyGap saturationGap
  have hle : eff ≤ (if mx0 < eff then eff * (3 / 2) else mx0) := by
    by_cases h : mx0 < eff
    · rw [if_pos h]; linarith
    · rw [if_neg h]; exact not_lt.mp h
  refine ⟨le_max_left _ _, le_max_right _ _, ?_, ?_⟩
  · cases strategy with
    | false => simp
    | true =>
      simp only [if_true]
      cases hg : golden f rho eps rounds eff (if mx0 < eff then eff * (3 / 2) else mx0) with
      | none => simp
      | some o => simpa using (golden_close f rho eps rounds h0 h2 hgold heps _ _ _ hle hg).1
  · cases strategy with
    | false => simpa using hle
    | true =>
      simp only [if_true]
      cases hg : golden f rho eps rounds eff (if mx0 < eff then eff * (3 / 2) else mx0) with
      | none => simpa using hle
      | some o => simpa using (golden_close f rho eps rounds h0 h2 hgold heps _ _ _ hle hg).2.1

/-- The reported maximum can exceed both physical limits it is taken from (column width and fringing). -/
theorem max_gap_above_limits :
    (gapConstraints (K := ℚ) false (fun _ _ => none) 1 2 3 4).maxGap = 6 := by decide +kernel

/-! ## C46: gap rejection -/

/-- **C46**: for every list of candidates, the fringing rejection keeps exactly those that pass the strict limit, or,
when none does, exactly those that pass the relaxed limit; order and scores are kept. -/
theorem reject_gaps {L : Type} (valid : L → M → Bool) (strict relaxed : L) (l : List (M × K)) :
    ∃ out, rejectGaps valid strict relaxed l = .ok out ∧
      ((∃ p ∈ l, valid strict p.1 = true) → out = l.filter (fun p => valid strict p.1)) ∧
      ((∀ p ∈ l, valid strict p.1 = false) → out = l.filter (fun p => valid relaxed p.1)) := by
  cases l with
  | nil => exact ⟨[], rfl, by simp, by simp⟩
  | cons q l =>
    simp only [rejectGaps]
    by_cases hk : (q :: l).filter (fun p => valid strict p.1) = []
    · rw [if_pos hk]
      refine ⟨_, rfl, ?_, fun _ => rfl⟩
      rintro ⟨p, hp, hv⟩
      have := List.filter_eq_nil_iff.mp hk p hp
      exact absurd hv this
    · rw [if_neg hk]
      refine ⟨_, rfl, fun _ => rfl, ?_⟩
      intro hall
      exact absurd (List.filter_eq_nil_iff.mpr (fun p hp => by simp [hall p hp])) hk

/-- The relaxed limit is never tighter: then the rejection is empty exactly when every candidate fails the relaxed
limit. -/
theorem reject_gaps_empty {L : Type} (valid : L → M → Bool) (strict relaxed : L)
    (hmono : ∀ m, valid strict m = true → valid relaxed m = true) (l : List (M × K)) :
    rejectGaps valid strict relaxed l = .ok [] ↔ ∀ p ∈ l, valid relaxed p.1 = false := by
  obtain ⟨out, h1, h2, h3⟩ := reject_gaps (K := K) valid strict relaxed l
  rw [h1]
  simp only [Except.ok.injEq]
  by_cases hs : ∃ p ∈ l, valid strict p.1 = true
  · obtain ⟨p, hp, hv⟩ := hs
    rw [h2 ⟨p, hp, hv⟩]
    constructor
    · intro h
      exact absurd hv (List.filter_eq_nil_iff.mp h p hp)
    · intro h
      have := h p hp
      rw [hmono _ hv] at this
      simp at this
  · push Not at hs
    rw [h3 (fun p hp => by simpa using hs p hp), List.filter_eq_nil_iff]
    simp

example : rejectGaps (K := ℚ) (fun (lim m : Nat) => decide (m ≤ lim)) 3 10 [(5, 1), (2, 0), (12, 0)] = .ok [(2, 0)] ∧
    rejectGaps (K := ℚ) (fun (lim m : Nat) => decide (m ≤ lim)) 1 10 [(5, 1), (2, 0), (12, 0)] =
      .ok [(5, 1), (2, 0)] := by decide +kernel

/-! ## C47: placeholder materials -/

/-- **C47**: every candidate with a concrete material comes out once and unchanged; every placeholder candidate is
replaced, in place, by one copy per material for the best `n` materials, all with its score; no other candidate
appears. With no ranked material the placeholders vanish. -/
theorem fan_out {W : Type} (isDummy : M → Bool) (assign : W → M → M) (ranked : List W) (n : Nat) (l : List (M × K)) :
    (∀ l₁ p l₂, fanOut isDummy assign ranked n (l₁ ++ p :: l₂) = fanOut isDummy assign ranked n l₁ ++
      (if isDummy p.1 then (ranked.take n).map (fun w => (assign w p.1, p.2)) else [p]) ++
      fanOut isDummy assign ranked n (K := K) l₂) ∧
    ((∀ w m, isDummy (assign w m) = false) → ∀ p ∈ fanOut isDummy assign ranked n l, isDummy p.1 = false) ∧
    (fanOut isDummy assign ranked n l).length =
      (l.filter (fun p => !isDummy p.1)).length + (l.filter (fun p => isDummy p.1)).length * min n ranked.length ∧
    (∀ p ∈ fanOut isDummy assign ranked n l, (p ∈ l ∧ isDummy p.1 = false) ∨
      ∃ q ∈ l, ∃ w ∈ ranked.take n, isDummy q.1 = true ∧ p = (assign w q.1, q.2)) := by
  have htake : ranked.take (min n ranked.length) = ranked.take n := by
    rcases Nat.le_total n ranked.length with h | h
    · rw [Nat.min_eq_left h]
    · rw [Nat.min_eq_right h, List.take_of_length_le (le_refl _), List.take_of_length_le h]
  have hmem : ∀ p ∈ fanOut isDummy assign ranked n l, (p ∈ l ∧ isDummy p.1 = false) ∨
      ∃ q ∈ l, ∃ w ∈ ranked.take n, isDummy q.1 = true ∧ p = (assign w q.1, q.2) := by
    intro p hp
    simp only [fanOut, htake, List.mem_flatMap] at hp
    obtain ⟨q, hq, hp⟩ := hp
    by_cases hd : isDummy q.1 = true
    · rw [if_pos hd] at hp
      obtain ⟨w, hw, rfl⟩ := List.mem_map.mp hp
      exact Or.inr ⟨q, hq, w, hw, hd, rfl⟩
    · rw [if_neg hd] at hp
      simp only [List.mem_singleton] at hp
      subst hp
      exact Or.inl ⟨hq, by simpa using hd⟩
  refine ⟨?_, ?_, ?_, hmem⟩
  · intro l₁ p l₂
    simp only [fanOut, htake, List.flatMap_append, List.flatMap_cons, List.append_assoc]
  · intro ha p hp
    rcases hmem p hp with ⟨_, h⟩ | ⟨q, _, w, _, _, rfl⟩
    · exact h
    · exact ha w q.1
  · clear hmem
    induction l with
    | nil => simp [fanOut]
    | cons p l ih =>
      simp only [fanOut, htake] at ih ⊢
      simp only [List.flatMap_cons, List.length_append, ih]
      by_cases hd : isDummy p.1 = true
      · simp [hd, Nat.succ_mul]; omega
      · simp [hd]; omega

example : fanOut (K := ℚ) (fun m : Nat => m % 10 == 0) (fun (w m : Nat) => m + w) [3, 1, 2] 2 [(10, 5), (7, 4), (20, 1)] =
    [(13, 5), (11, 5), (7, 4), (23, 1), (21, 1)] := by decide +kernel

end Verif.Adviser
