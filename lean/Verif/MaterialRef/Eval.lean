import Verif.MaterialRef.Lemmas
import Mathlib.Algebra.Order.Field.Rat

/-! # An evaluable form of the cross-referencer

`List.mergeSort` does not reduce in the kernel. The functions below are those of the model with the insertion sort, which
gives the same list; they are used only to compute examples. -/

namespace Verif.MaterialRef.Eval

variable {K : Type} [Field K] [LinearOrder K] [IsStrictOrderedRing K]

/-- `Scoring.crossNormalize` with the insertion sort. -/
def crossNormalize {I : Type} (lg : K → K) (weight : K) (invert log : Bool) (ranked : List (I × K))
    (newScoring : List (Scoring.Num K)) : Scoring.Out I K :=
  match newScoring with
  | [] => .ub
  | x :: l =>
    match Scoring.maxElement x l with
    | .fin mx =>
      let mn := Scoring.minOr (max Scoring.floor10 (mx * Scoring.floorRatio)) (Scoring.minElement x l)
      match Scoring.addContributions (fun v => Scoring.contribution lg weight invert log mn mx (Scoring.project mx v)) ranked
          (x :: l) with
      | .ok r => .ok (Scoring.insSort r)
      | r => r
    | _ => .ok (Scoring.insSort (ranked.map (fun p => (p.1, p.2 + weight))))

theorem crossNormalize_eq {I : Type} (lg : K → K) (w : K) (i l : Bool) (r : List (I × K)) (s : List (Scoring.Num K)) :
    Scoring.crossNormalize lg w i l r s = crossNormalize lg w i l r s := by
  unfold Scoring.crossNormalize crossNormalize
  simp only [Scoring.sortDesc_eq_insSort]
  cases s with
  | nil => rfl
  | cons x xs =>
    simp only []
    cases Scoring.maxElement x xs with
    | fin mx =>
      simp only []
      generalize Scoring.addContributions _ r (x :: xs) = o
      cases o <;> rfl
    | nan => rfl
    | pinf => rfl
    | ninf => rfl

/-- `rescore` with the insertion sort. -/
def rescore (weight : K) (kept : List (Material K × K)) (scores : List K) : Outcome (List (Material K × K)) :=
  match kept with
  | [] => .ok []
  | _ :: _ =>
    match crossNormalize id weight true false kept (scores.map Scoring.Num.fin) with
    | .ok r => .ok r
    | _ => .undefined

theorem rescore_eq (w : K) (k : List (Material K × K)) (s : List K) : MaterialRef.rescore w k s = rescore w k s := by
  unfold MaterialRef.rescore rescore
  cases k with
  | nil => rfl
  | cons x xs =>
    simp only [crossNormalize_eq]
    cases crossNormalize id w true false (x :: xs) (s.map Scoring.Num.fin) <;> rfl

/-- `plainEnd` with the insertion sort. -/
def plainEnd (weight : K) (ranked : List (Material K × K)) (r : Memo K × Option (List K)) :
    Memo K × Outcome (List (Material K × K)) :=
  match r.2 with
  | some scores => (r.1, rescore weight ranked scores)
  | none => (r.1, .raised)

/-- `cullEnd` with the insertion sort. -/
def cullEnd (weight : K) (r : Memo K × Option (List (Material K × K) × List K)) :
    Memo K × Outcome (List (Material K × K)) :=
  match r.2 with
  | some p => (r.1, rescore weight p.1 p.2)
  | none => (r.1, .raised)

theorem plainEnd_eq (w : K) (k : List (Material K × K)) (s : Memo K × Option (List K)) :
    MaterialRef.plainEnd w k s = plainEnd w k s := by
  unfold MaterialRef.plainEnd plainEnd
  cases s.2 with
  | none => rfl
  | some x => simp only [rescore_eq]

theorem cullEnd_eq (w : K) (s : Memo K × Option (List (Material K × K) × List K)) :
    MaterialRef.cullEnd w s = cullEnd w s := by
  unfold MaterialRef.cullEnd cullEnd
  cases s.2 with
  | none => rfl
  | some x => simp only [rescore_eq]

/-- `plainFilter` with the insertion sort. -/
def plainFilter (temp : K) (reference : Material K) (weight : K) (d : Dimension) (m : Memo K)
    (ranked : List (Material K × K)) : Memo K × Outcome (List (Material K × K)) :=
  if weight ≤ 0 then (m, .ok ranked)
  else
    match reference.reading temp d with
    | .raises => (m, .raised)
    | .nan => plainEnd weight ranked (plainLoop temp d none m ranked)
    | .number r => plainEnd weight ranked (plainLoop temp d (some r) m ranked)

/-- `cullFilter` with the insertion sort. -/
def cullFilter (temp : K) (reference : Material K) (weight : K) (d : Dimension) (m : Memo K)
    (ranked : List (Material K × K)) : Memo K × Outcome (List (Material K × K)) :=
  if weight ≤ 0 then (m, .ok ranked)
  else
    match reference.reading temp d with
    | .raises => (m, .raised)
    | .nan => (m, .ok ranked)
    | .number r => cullEnd weight (cullLoop temp d r m ranked)

/-- `step` with the insertion sort. -/
def step (temp : K) (reference : Material K) (weights : Dimension → K) (d : Dimension) (m : Memo K)
    (ranked : List (Material K × K)) : Memo K × Outcome (List (Material K × K)) :=
  if d.culls then cullFilter temp reference (weights d) d m ranked
  else plainFilter temp reference (weights d) d m ranked

theorem step_eq (t : K) (r : Material K) (w : Dimension → K) (d : Dimension) (m : Memo K) (l : List (Material K × K)) :
    MaterialRef.step t r w d m l = step t r w d m l := by
  unfold MaterialRef.step step MaterialRef.cullFilter cullFilter MaterialRef.plainFilter plainFilter
  simp only [plainEnd_eq, cullEnd_eq]
  cases r.reading t d <;> rfl

/-- `pipeline` with the insertion sort. -/
def pipeline (temp : K) (reference : Material K) (weights : Dimension → K) :
    List Dimension → Memo K → List (Material K × K) → Memo K × Outcome (List (Material K × K))
  | [], m, ranked => (m, .ok ranked)
  | d :: ds, m, ranked =>
    match step temp reference weights d m ranked with
    | (m', .ok ranked') => pipeline temp reference weights ds m' ranked'
    | (m', .raised) => (m', .raised)
    | (m', .undefined) => (m', .undefined)

theorem pipeline_eq (temp : K) (reference : Material K) (weights : Dimension → K) (ds : List Dimension) :
    ∀ (m : Memo K) (l : List (Material K × K)),
    MaterialRef.pipeline temp reference weights ds m l = pipeline temp reference weights ds m l := by
  induction ds with
  | nil => intro m l; rfl
  | cons d ds ih =>
    intro m l
    unfold MaterialRef.pipeline pipeline
    rw [step_eq]
    generalize step temp reference weights d m l = a
    obtain ⟨a1, a2⟩ := a
    cases a2 with
    | ok l' => exact ih _ _
    | raised => rfl
    | undefined => rfl

/-- `queryWith` with the insertion sort. -/
def queryWith (catalogue : List (Material K)) (allow : Bool) (weights : Dimension → K) (reference : Material K) (temp : K)
    (n : Nat) (s : Session K) : Session K × Outcome (List (Material K × K)) :=
  let r := finish n (pipeline temp reference weights dimensions s.memo (entrants catalogue allow s.only reference))
  (⟨weights, s.only, r.1⟩, r.2)

theorem queryWith_eq (catalogue : List (Material K)) (allow : Bool) (weights : Dimension → K) (reference : Material K)
    (temp : K) (n : Nat) (s : Session K) : MaterialRef.queryWith catalogue allow weights reference temp n s =
      queryWith catalogue allow weights reference temp n s := by
  unfold MaterialRef.queryWith queryWith
  rw [pipeline_eq]

end Verif.MaterialRef.Eval
