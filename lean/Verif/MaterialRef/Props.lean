import Verif.MaterialRef.Steps
import Verif.MaterialRef.Eval
import Mathlib.Algebra.Order.Field.Rat
import Mathlib.Tactic.NormNum

/-! # Properties of the cross-referencer of core materials -/

namespace Verif.MaterialRef

set_option linter.unusedSimpArgs false
set_option linter.unusedSectionVars false
set_option linter.unusedVariables false

open Classical

variable {K : Type} [Field K] [LinearOrder K] [IsStrictOrderedRing K]

theorem entrants_fst (catalogue : List (Material K)) (allow : Bool) (only : Option String) (reference : Material K) :
    (entrants catalogue allow only reference).map Prod.fst =
      catalogue.filter (fun c => decide (Fits allow only reference c)) := by
  unfold entrants
  rw [List.map_map, List.filter_filter]
  rw [show (Prod.fst ∘ fun c : Material K => (c, (0 : K))) = id from rfl, List.map_id]
  apply List.filter_congr
  intro c _
  unfold comparable eligible Fits
  cases only with
  | none => rw [Bool.eq_iff_iff]; simp; tauto
  | some m => rw [Bool.eq_iff_iff]; simp; tauto

theorem finish_ok {n : Nat} {r : Memo K × Outcome (List (Material K × K))} {l : List (Material K × K)}
    (h : (finish n r).2 = .ok l) : ∃ full, r.2 = .ok full ∧ l = full.take n := by
  obtain ⟨m, o⟩ := r
  cases o with
  | ok full =>
    refine ⟨full, rfl, ?_⟩
    simp only [finish, Outcome.ok.injEq] at h
    rw [← h]
    unfold cut
    by_cases hn : n < full.length
    · rw [if_pos hn]
    · rw [if_neg hn, List.take_of_length_le (not_lt.mp hn)]
  | raised => simp [finish] at h
  | undefined => simp [finish] at h

theorem finish_raised (n : Nat) (r : Memo K × Outcome (List (Material K × K))) :
    (finish n r).2 = .raised ↔ r.2 = .raised := by
  obtain ⟨m, o⟩ := r
  cases o <;> simp [finish]

theorem finish_fst (n : Nat) (r : Memo K × Outcome (List (Material K × K))) : (finish n r).1 = r.1 := by
  obtain ⟨m, o⟩ := r
  cases o <;> rfl

theorem start_piped {temp : K} {reference : Material K} {w : Dimension → K} {m : Memo K} {catalogue : List (Material K)}
    {allow : Bool} {only : Option String} {full : List (Material K × K)}
    (h : (pipeline temp reference w dimensions m (entrants catalogue allow only reference)).2 = .ok full) :
    Piped temp reference w dimensions (entrants catalogue allow only reference) full := by
  rcases pipeline_spec temp reference w dimensions m (entrants catalogue allow only reference) with ⟨_, e⟩ | ⟨_, after, e, hp⟩
  · rw [h] at e; simp at e
  · rw [h] at e
    simp only [Outcome.ok.injEq] at e
    rw [e]; exact hp

theorem entrants_zero {catalogue : List (Material K)} {allow : Bool} {only : Option String} {reference : Material K}
    {p : Material K × K} (h : p ∈ entrants catalogue allow only reference) : p.2 = 0 := by
  obtain ⟨c, _, e⟩ := List.mem_map.mp h
  rw [← e]

theorem mem_dimensions (d : Dimension) : d ∈ dimensions := by cases d <;> simp [dimensions]

/-- **C328.** The materials offered are, in descending order of total, the first `n` of exactly those of the catalogue
that fit the reference and are not excluded by an unknown Curie temperature or unknown losses; every total lies between
0 and the sum of the positive weights. -/
theorem results_exact (catalogue : List (Material K)) (allow : Bool) (w : Dimension → K) (reference : Material K)
    (temp : K) (n : Nat) (s : Session K) (l : List (Material K × K))
    (h : (queryWith catalogue allow w reference temp n s).2 = .ok l) :
    ∃ full : List (Material K × K), l = full.take n ∧
      (full.map Prod.fst).Perm (catalogue.filter (fun c => decide (Fits allow s.only reference c ∧
        ∀ d, Passes temp reference w d c))) ∧
      full.Pairwise (fun a b => b.2 ≤ a.2) ∧
      ∀ p ∈ full, 0 ≤ p.2 ∧ p.2 ≤ max (w .permeability) 0 + (max (w .remanence) 0 + (max (w .coerciveForce) 0 +
        (max (w .saturation) 0 + (max (w .curie) 0 + (max (w .losses) 0 + max (w .resistivity) 0))))) := by
  obtain ⟨full, h1, h2⟩ := finish_ok h
  have hp := start_piped h1
  refine ⟨full, h2, ?_, ?_, fun p hm => ?_⟩
  · have := hp.perm
    rw [entrants_fst] at this
    unfold leftAfter at this
    rw [List.filter_filter] at this
    refine this.trans (List.Perm.of_eq (List.filter_congr (fun c _ => ?_)))
    rw [Bool.eq_iff_iff]
    simp [mem_dimensions]
    tauto
  · apply hp.sorted
    unfold Descending
    apply List.pairwise_of_forall_mem_list
    intro a ha b hb
    rw [entrants_zero ha, entrants_zero hb]
  · have := hp.bounds 0 0 (fun q hq => by rw [entrants_zero hq]; exact ⟨le_refl _, le_refl _⟩) p hm
    simpa [dimensions] using this

/-- **C329.** Among the materials offered, one that is at least as close to the reference as another in every weighted
dimension has a total at least as large. -/
theorem closer_ranks (catalogue : List (Material K)) (allow : Bool) (w : Dimension → K) (reference : Material K)
    (temp : K) (n : Nat) (s : Session K) (l : List (Material K × K))
    (h : (queryWith catalogue allow w reference temp n s).2 = .ok l) (a b : Material K) (t u : K)
    (hc : ∀ d, 0 < w d → Closer temp reference d a b) (ha : (a, t) ∈ l) (hb : (b, u) ∈ l) : u ≤ t := by
  obtain ⟨full, h1, h2⟩ := finish_ok h
  rw [h2] at ha hb
  refine (start_piped h1).mono a b (fun d _ => hc d) (fun t u h3 h4 => ?_) t u (List.mem_of_mem_take ha) (List.mem_of_mem_take hb)
  rw [show t = 0 from entrants_zero h3, show u = 0 from entrants_zero h4]

/-- **C329.** A material with the very values of the reference is ranked no lower than any other. -/
theorem twin_first (catalogue : List (Material K)) (allow : Bool) (w : Dimension → K) (reference : Material K)
    (temp : K) (n : Nat) (s : Session K) (l : List (Material K × K))
    (h : (queryWith catalogue allow w reference temp n s).2 = .ok l) (a : Material K) (t : K)
    (ha : (a, t) ∈ l) (he : ∀ d, a.reading temp d = reference.reading temp d) (p : Material K × K) (hp : p ∈ l) :
    p.2 ≤ t := by
  refine closer_ranks catalogue allow w reference temp n s l h a p.1 t p.2 (fun d _ r x y hr hx hy => ?_) ha hp
  rw [he d, hr] at hx
  simp only [Reading.number.injEq] at hx
  rw [hx]
  simp

/-- **C330.** When a call throws: some weighted dimension, in the order of the pipeline, cannot be read on the
reference, or cannot be read (on the reference or on any of the candidates still left) without being one of the two
that exclude. Otherwise it gives a ranking; it never has undefined behaviour nor a total that is not a number. -/
theorem raises_iff (catalogue : List (Material K)) (allow : Bool) (w : Dimension → K) (reference : Material K)
    (temp : K) (n : Nat) (s : Session K) :
    ((queryWith catalogue allow w reference temp n s).2 = .raised ↔
      ∃ pre d post, dimensions = pre ++ d :: post ∧ Blocks temp reference w d
        (catalogue.filter (fun c => decide (Fits allow s.only reference c ∧ ∀ e ∈ pre, Passes temp reference w e c)))) ∧
    (queryWith catalogue allow w reference temp n s).2 ≠ .undefined := by
  have hspec := pipeline_spec temp reference w dimensions s.memo (entrants catalogue allow s.only reference)
  have hst : Stops temp reference w dimensions ((entrants catalogue allow s.only reference).map Prod.fst) ↔
      ∃ pre d post, dimensions = pre ++ d :: post ∧ Blocks temp reference w d
        (catalogue.filter (fun c => decide (Fits allow s.only reference c ∧ ∀ e ∈ pre, Passes temp reference w e c))) := by
    rw [entrants_fst]
    have e : ∀ pre : List Dimension, leftAfter temp reference w pre
        (catalogue.filter (fun c => decide (Fits allow s.only reference c))) =
        catalogue.filter (fun c => decide (Fits allow s.only reference c ∧ ∀ e ∈ pre, Passes temp reference w e c)) := by
      intro pre
      unfold leftAfter
      rw [List.filter_filter]
      apply List.filter_congr
      intro c _
      simp [Bool.and_comm]
    unfold Stops
    simp only [e]
  rw [← hst]
  unfold queryWith
  simp only [finish_raised]
  rcases hspec with ⟨h1, h2⟩ | ⟨h1, after, h2, _⟩
  · refine ⟨⟨fun _ => h1, fun _ => h2⟩, ?_⟩
    have := (finish_raised n (pipeline temp reference w dimensions s.memo (entrants catalogue allow s.only reference))).mpr h2
    rw [this]
    simp
  · refine ⟨⟨fun h => by rw [h2] at h; simp at h, fun h => absurd h h1⟩, ?_⟩
    generalize pipeline temp reference w dimensions s.memo (entrants catalogue allow s.only reference) = r at h2
    obtain ⟨m, o⟩ := r
    simp only at h2
    subst h2
    simp [finish]

/-- **C330, negation.** One material of the catalogue without resistivity makes every call fail for the references it
fits, whatever else the catalogue holds. -/
theorem one_unknown_aborts (catalogue : List (Material K)) (allow : Bool) (w : Dimension → K) (reference : Material K)
    (temp : K) (n : Nat) (s : Session K) (d : Dimension) (hd : d = .permeability ∨ d = .saturation ∨ d = .resistivity)
    (hw : 0 < w d) (c : Material K) (hc : c ∈ catalogue) (hf : Fits allow s.only reference c)
    (hp : ∀ e, Passes temp reference w e c) (hr : c.reading temp d = .raises) :
    (queryWith catalogue allow w reference temp n s).2 = .raised := by
  rw [(raises_iff catalogue allow w reference temp n s).1]
  have hb : ∀ pre : List Dimension, Blocks temp reference w d (catalogue.filter
      (fun c => decide (Fits allow s.only reference c ∧ ∀ e ∈ pre, Passes temp reference w e c))) := by
    intro pre
    refine ⟨hw, Or.inr (Or.inl ⟨?_, c, ?_, Or.inr ?_⟩)⟩
    · rcases hd with rfl | rfl | rfl <;> simp [Excluding]
    · rw [List.mem_filter]
      exact ⟨hc, by simpa using ⟨hf, fun e _ => hp e⟩⟩
    · rintro ⟨x, hx⟩
      rw [hr] at hx
      simp at hx
  rcases hd with rfl | rfl | rfl
  · exact ⟨[], _, [.remanence, .coerciveForce, .saturation, .curie, .losses, .resistivity], rfl, hb _⟩
  · exact ⟨[.permeability, .remanence, .coerciveForce], _, [.curie, .losses, .resistivity], rfl, hb _⟩
  · exact ⟨[.permeability, .remanence, .coerciveForce, .saturation, .curie, .losses], _, [], rfl, hb _⟩

/-! ## Histories -/

/-- What a caller may do with one cross-referencer. -/
inductive Call (K : Type) where
  | restrict (manufacturer : String)
  | ask (reference : Material K) (temp : K) (n : Nat)
  | askWith (w : Dimension → K) (reference : Material K) (temp : K) (n : Nat)

/-- The effect of a call. -/
def perform (catalogue : List (Material K)) (allow : Bool) (s : Session K) : Call K → Session K
  | .restrict m => restrict m s
  | .ask r t n => (query catalogue allow r t n s).1
  | .askWith w r t n => (queryWith catalogue allow w r t n s).1

/-- The manufacturer after a history: the last one asked for. -/
def manufacturerAfter : Option String → List (Call K) → Option String
  | o, [] => o
  | _, .restrict m :: cs => manufacturerAfter (some m) cs
  | o, .ask _ _ _ :: cs => manufacturerAfter o cs
  | o, .askWith _ _ _ _ :: cs => manufacturerAfter o cs

/-- The weights after a history: the last ones given. -/
def weightsAfter : (Dimension → K) → List (Call K) → (Dimension → K)
  | w, [] => w
  | w, .restrict _ :: cs => weightsAfter w cs
  | w, .ask _ _ _ :: cs => weightsAfter w cs
  | _, .askWith w' _ _ _ :: cs => weightsAfter w' cs

theorem history (catalogue : List (Material K)) (allow : Bool) (cs : List (Call K)) : ∀ s : Session K,
    (cs.foldl (perform catalogue allow) s).only = manufacturerAfter s.only cs ∧
    (cs.foldl (perform catalogue allow) s).weights = weightsAfter s.weights cs := by
  induction cs with
  | nil => intro s; exact ⟨rfl, rfl⟩
  | cons c cs ih =>
    intro s
    rw [List.foldl_cons]
    obtain ⟨h1, h2⟩ := ih (perform catalogue allow s c)
    rw [h1, h2]
    cases c <;> exact ⟨rfl, rfl⟩

/-- **C331.** The ranking of a call depends on the calls made before only through the last manufacturer asked for and,
when the call gives no weights, the last weights given. -/
theorem answer_of_history (catalogue : List (Material K)) (allow : Bool) (cs : List (Call K)) (s : Session K)
    (reference : Material K) (temp : K) (n : Nat) (w : Dimension → K) (m : Memo K) :
    (queryWith catalogue allow w reference temp n (cs.foldl (perform catalogue allow) s)).2 =
      (queryWith catalogue allow w reference temp n ⟨w, manufacturerAfter s.only cs, m⟩).2 ∧
    (query catalogue allow reference temp n (cs.foldl (perform catalogue allow) s)).2 =
      (queryWith catalogue allow (weightsAfter s.weights cs) reference temp n ⟨w, manufacturerAfter s.only cs, m⟩).2 := by
  have key : ∀ (w' : Dimension → K) (a b : Session K), a.only = b.only →
      (queryWith catalogue allow w' reference temp n a).2 = (queryWith catalogue allow w' reference temp n b).2 := by
    intro w' a b h
    unfold queryWith
    simp only [h]
    have := pipeline_memo temp reference w' dimensions a.memo b.memo (entrants catalogue allow b.only reference)
    unfold finish
    rw [this]
    cases (pipeline temp reference w' dimensions b.memo (entrants catalogue allow b.only reference)).2 <;> rfl
  obtain ⟨h1, h2⟩ := history catalogue allow cs s
  refine ⟨key w _ _ h1, ?_⟩
  unfold query
  rw [h2]
  exact key _ _ _ h1

/-- **C332.** What is listed stays listed, whatever is asked later. -/
theorem listed_stays (catalogue : List (Material K)) (allow : Bool) (cs : List (Call K)) (d : Dimension) (n : String) :
    ∀ s : Session K, listed s d n → listed (cs.foldl (perform catalogue allow) s) d n := by
  have hq : ∀ (w : Dimension → K) (r : Material K) (t : K) (k : Nat) (s : Session K), listed s d n →
      listed (queryWith catalogue allow w r t k s).1 d n := by
    intro w r t k s h
    unfold listed queryWith
    simp only [finish_fst]
    exact pipeline_grows t r w dimensions s.memo _ d n h
  induction cs with
  | nil => intro s h; exact h
  | cons c cs ih =>
    intro s h
    rw [List.foldl_cons]
    apply ih
    cases c with
    | restrict m => exact h
    | ask r t k => exact hq _ _ _ _ _ h
    | askWith w r t k => exact hq _ _ _ _ _ h

/-- A call that succeeds lists every candidate it compared under the initial permeability, when that has a weight. -/
theorem compared_listed (catalogue : List (Material K)) (allow : Bool) (w : Dimension → K) (reference : Material K)
    (temp : K) (n : Nat) (s : Session K) (l : List (Material K × K)) (hw : 0 < w .permeability)
    (h : (queryWith catalogue allow w reference temp n s).2 = .ok l) (c : Material K) (hc : c ∈ catalogue)
    (hf : Fits allow s.only reference c) : listed (queryWith catalogue allow w reference temp n s).1 .permeability c.name := by
  obtain ⟨full, h1, _⟩ := finish_ok h
  have hm : c ∈ (entrants catalogue allow s.only reference).map Prod.fst := by
    rw [entrants_fst, List.mem_filter]
    exact ⟨hc, by simpa using hf⟩
  obtain ⟨p, hp, e⟩ := List.mem_map.mp hm
  unfold listed queryWith
  simp only [finish_fst]
  rw [show dimensions = .permeability :: [.remanence, .coerciveForce, .saturation, .curie, .losses, .resistivity] from rfl] at h1 ⊢
  have hs := step_grows temp reference w .permeability s.memo (entrants catalogue allow s.only reference)
  conv at h1 => unfold pipeline
  conv => unfold pipeline
  generalize step temp reference w .permeability s.memo (entrants catalogue allow s.only reference) = a at hs h1
  obtain ⟨a1, a2⟩ := a
  cases a2 with
  | ok l' =>
    have := hs.2 (by simp [Excluding]) hw ⟨l', rfl⟩ p hp
    rw [e] at this
    exact pipeline_grows temp reference w _ a1 l' .permeability c.name this
  | raised => simp at h1
  | undefined => simp at h1

/-- **C332, negation.** The scores reported after a call are not those of the call: once a call for one reference has
succeeded, the report after any later call, even one for `c` itself, still lists every candidate `c` of that first
call. -/
theorem report_of_older_calls (catalogue : List (Material K)) (allow : Bool) (w : Dimension → K) (reference : Material K)
    (temp : K) (n : Nat) (s : Session K) (l : List (Material K × K)) (hw : 0 < w .permeability)
    (h : (queryWith catalogue allow w reference temp n s).2 = .ok l) (c : Material K) (hc : c ∈ catalogue)
    (hf : Fits allow s.only reference c) (later : List (Call K)) (temp' : K) (n' : Nat) :
    listed ((later ++ [Call.ask c temp' n']).foldl (perform catalogue allow)
      (queryWith catalogue allow w reference temp n s).1) .permeability c.name :=
  listed_stays catalogue allow _ _ _ _ (compared_listed catalogue allow w reference temp n s l hw h c hc hf)

/-! ## A catalogue -/

/-- A material with a permeability, a saturation and maybe a Curie temperature; everything else is 0. -/
def sample (name : String) (mu b : ℚ) (curie : Reading ℚ) (resistivity : Reading ℚ) : Material ℚ where
  name := name
  manufacturer := "Ferroxcube"
  application := 0
  type := 0
  reading := fun _ d => match d with
    | .permeability => .number mu
    | .saturation => .number b
    | .curie => curie
    | .resistivity => resistivity
    | _ => .number 0

/-- Weights 1 for the permeability, 9/10 for the saturation, and the Curie temperature. -/
def sampleWeights (d : Dimension) : ℚ :=
  match d with
  | .permeability => 1
  | .saturation => 9 / 10
  | .curie => 1 / 100
  | _ => 0

/-- The reference. -/
def sampleReference : Material ℚ := sample "3C95" 3000 500 (.number 200) (.number 5)
/-- Same permeability, a saturation one off. -/
def sampleA : Material ℚ := sample "3C90" 3000 499 (.number 200) (.number 5)
/-- Same saturation, a permeability one off. -/
def sampleB : Material ℚ := sample "3C97" 2999 500 (.number 200) (.number 5)
/-- A far permeability and no Curie temperature. -/
def sampleC : Material ℚ := sample "NPU" 2900 500 .nan (.number 5)

/-- The names of a ranking, in order. -/
def orderOf {K : Type} : Outcome (List (Material K × K)) → Option (List String)
  | .ok l => some (l.map (fun p => p.1.name))
  | _ => none

/-- **C333, negation.** The order of two materials that are both offered depends on a third one that is not: with the
material that is excluded for its unknown Curie temperature in the catalogue the other two swap places, because the
dimensions before the exclusion were normalised over it. -/
theorem excluded_reorders :
    orderOf (queryWith [sampleA, sampleB] false sampleWeights sampleReference 25 10 fresh).2 = some ["3C90", "3C97"] ∧
    orderOf (queryWith [sampleA, sampleB, sampleC] false sampleWeights sampleReference 25 10 fresh).2 =
      some ["3C97", "3C90"] := by
  rw [Eval.queryWith_eq, Eval.queryWith_eq]
  exact ⟨by decide +kernel, by decide +kernel⟩

/-- **C333 (partial).** Materials that do not fit the reference have no influence. -/
theorem unfit_irrelevant_partial (catalogue : List (Material K)) (allow : Bool) (w : Dimension → K)
    (reference : Material K) (temp : K) (n : Nat) (s : Session K) :
    queryWith catalogue allow w reference temp n s =
      queryWith (catalogue.filter (fun c => decide (Fits allow s.only reference c))) allow w reference temp n s := by
  have : entrants catalogue allow s.only reference =
      entrants (catalogue.filter (fun c => decide (Fits allow s.only reference c))) allow s.only reference := by
    have hf : ∀ c : List (Material K), entrants c allow s.only reference =
        ((entrants c allow s.only reference).map Prod.fst).map (fun x => (x, 0)) := by
      intro c
      unfold entrants
      simp [List.map_map, Function.comp_def]
    rw [hf, hf (catalogue.filter _), entrants_fst, entrants_fst, List.filter_filter]
    simp
  unfold queryWith
  rw [← this]

/-- Hypotheses of `results_exact`, `closer_ranks`, `twin_first` and `compared_listed`: the call succeeds. -/
example : ∃ l, (queryWith [sampleA, sampleB, sampleC] false sampleWeights sampleReference 25 10 fresh).2 = .ok l ∧
    l.length = 2 := by
  have h := excluded_reorders.2
  generalize (queryWith [sampleA, sampleB, sampleC] false sampleWeights sampleReference 25 10 fresh).2 = o at h
  cases o with
  | ok l =>
    refine ⟨l, rfl, ?_⟩
    simp only [orderOf, Option.some.injEq] at h
    have := congrArg List.length h
    simpa using this
  | raised => simp [orderOf] at h
  | undefined => simp [orderOf] at h

/-- Hypotheses of `one_unknown_aborts`. -/
example : (queryWith [sampleA, sample "X" 2000 400 (.number 200) .raises] false (fun _ => 1) sampleReference 25 10 fresh).2 =
    .raised := by
  refine one_unknown_aborts _ _ _ _ _ _ _ .resistivity (by simp) (by norm_num)
    (sample "X" 2000 400 (.number 200) .raises) (by simp) ?_ ?_ rfl
  · refine ⟨by decide, by simp [fresh], rfl, Or.inr rfl⟩
  · intro e he
    rcases he with rfl | rfl <;> intro _ _ <;> simp [sample]

/-- Hypotheses of `report_of_older_calls`: the material `c` fits the first reference. -/
example : Fits false (fresh : Session ℚ).only sampleReference sampleA :=
  ⟨by decide, by simp [fresh], rfl, Or.inr rfl⟩

end Verif.MaterialRef
