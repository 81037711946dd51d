import Verif.Advice.Fast
import Mathlib.Algebra.Order.Field.Rat
import Mathlib.Tactic.Linarith

/-!
# The fast design: C220–C221
-/

set_option linter.unusedSimpArgs false
set_option linter.unusedSectionVars false

namespace Verif.Advice.Fast

open Verif Verif.Scoring Verif.Advice

variable {C M K : Type} [Field K] [LinearOrder K]

/-! ## Specification -/

/-- The losses of a design add up to this much: those of core and windings over all operating points, as far as they are there, all finite. -/
inductive Sums : List (Option (Num K) × Option (Num K)) → K → Prop
  | nil : Sums [] 0
  | none {l t} : Sums l t → Sums ((none, none) :: l) t
  | core {l t x} : Sums l t → Sums ((some (.fin x), none) :: l) (x + t)
  | winding {l t y} : Sums l t → Sums ((none, some (.fin y)) :: l) (y + t)
  | both {l t x y} : Sums l t → Sums ((some (.fin x), some (.fin y)) :: l) (x + y + t)

/-- A design may be answered for a core: it comes from winding it, interleaved if there are several windings, or, when that gives no
turns, not; it has turns; each strictly required filter accepts it or fails on it; its losses are finite and more than nothing. -/
def Answerable (env : Env C M K) (flow : List (Op K)) (windings : ℕ) (c : C) (e : M × K) : Prop :=
  ∃ p : Post M K, p.design = e.1 ∧ p.wound = true ∧ Sums p.losses e.2 ∧ 0 < e.2 ∧
    (∀ op ∈ flow, op.strict = true → (∃ s, env.evaluate op.kind p.design = .answer true s) ∨ ∃ msg, env.evaluate op.kind p.design = .threw msg) ∧
    ((windings ≤ 1 ∧ env.post c 1 = some p) ∨ (1 < windings ∧ env.post c 2 = some p) ∨
      (1 < windings ∧ env.post c 1 = some p ∧ env.repetitions c ≠ 1 ∧ ∃ q, env.post c 2 = some q ∧ q.wound = false))

/-! ## Lemmas -/

theorem add_fin {a b : Num K} {t : K} (h : add a b = .fin t) : ∃ x y, a = .fin x ∧ b = .fin y ∧ t = x + y := by
  cases a <;> cases b <;> simp [add] at h
  exact ⟨_, _, rfl, rfl, h.symm⟩

theorem total_from (l : List (Option (Num K) × Option (Num K))) : ∀ (s : Num K) (t : K),
    l.foldl (fun t o => addSome (addSome t o.1) o.2) s = .fin t ↔ ∃ s' r, s = .fin s' ∧ Sums l r ∧ t = s' + r := by
  induction l with
  | nil =>
    intro s t
    simp only [List.foldl_nil]
    constructor
    · intro h; exact ⟨t, 0, h, .nil, by simp⟩
    · rintro ⟨s', r, h, hs, ht⟩
      cases hs
      rw [h, ht, add_zero]
  | cons o l ih =>
    intro s t
    obtain ⟨a, b⟩ := o
    rw [List.foldl_cons, ih]
    cases a with
    | none =>
      cases b with
      | none =>
        constructor
        · rintro ⟨s', r, h, hs, ht⟩; exact ⟨s', r, h, .none hs, ht⟩
        · rintro ⟨s', r, h, hs, ht⟩
          cases hs with
          | none hs => exact ⟨s', r, h, hs, ht⟩
      | some y =>
        constructor
        · rintro ⟨s', r, h, hs, ht⟩
          obtain ⟨u, v, h1, h2, h3⟩ := add_fin h
          subst h2
          exact ⟨u, v + r, h1, .winding hs, by rw [ht, h3, add_assoc]⟩
        · rintro ⟨s', r, h, hs, ht⟩
          cases hs with
          | @winding _ t' v hs =>
            subst h
            exact ⟨s' + v, t', rfl, hs, by rw [ht, add_assoc]⟩
    | some x =>
      cases b with
      | none =>
        constructor
        · rintro ⟨s', r, h, hs, ht⟩
          obtain ⟨u, v, h1, h2, h3⟩ := add_fin h
          subst h2
          exact ⟨u, v + r, h1, .core hs, by rw [ht, h3, add_assoc]⟩
        · rintro ⟨s', r, h, hs, ht⟩
          cases hs with
          | @core _ t' v hs =>
            subst h
            exact ⟨s' + v, t', rfl, hs, by rw [ht, add_assoc]⟩
      | some y =>
        constructor
        · rintro ⟨s', r, h, hs, ht⟩
          obtain ⟨u, v, h1, h2, h3⟩ := add_fin h
          obtain ⟨u', v', h1', h2', h3'⟩ := add_fin h1
          subst h2; subst h2'
          exact ⟨u', v' + v + r, h1', .both hs, by rw [ht, h3, h3']; simp only [add_assoc]⟩
        · rintro ⟨s', r, h, hs, ht⟩
          cases hs with
          | @both _ t' v w hs =>
            subst h
            exact ⟨s' + v + w, t', rfl, hs, by rw [ht]; simp only [add_assoc]⟩

theorem total_sums (l : List (Option (Num K) × Option (Num K))) (t : K) : total l = .fin t ↔ Sums l t := by
  unfold total
  rw [total_from]
  constructor
  · rintro ⟨s', r, h, hs, ht⟩
    simp only [Num.fin.injEq] at h
    rw [ht, ← h, zero_add]
    exact hs
  · intro h
    exact ⟨0, t, rfl, h, by simp⟩

theorem rejected_false (env : Env C M K) (flow : List (Op K)) (m : M) : rejected env flow m = false ↔
    ∀ op ∈ flow, op.strict = true → (∃ s, env.evaluate op.kind m = .answer true s) ∨ ∃ msg, env.evaluate op.kind m = .threw msg := by
  unfold rejected
  rw [List.any_eq_false]
  refine forall₂_congr (fun op _ => ?_)
  cases op.strict <;> cases env.evaluate op.kind m <;> simp

/-- **C220.** A core gives an answer exactly when it may: wound, accepted or not judged by the strictly required filters, with finite losses. -/
theorem evaluated_iff (env : Env C M K) (flow : List (Op K)) (windings : ℕ) (c : C) (e : M × K) :
    evaluated env flow windings c = some e ↔ Answerable env flow windings c e := by
  have hwind : ∀ p : Post M K, p.wound = true → (wind env windings c = some p ↔
      ((windings ≤ 1 ∧ env.post c 1 = some p) ∨ (1 < windings ∧ env.post c 2 = some p) ∨
      (1 < windings ∧ env.post c 1 = some p ∧ env.repetitions c ≠ 1 ∧ ∃ q, env.post c 2 = some q ∧ q.wound = false))) := by
    intro p hp
    unfold wind
    by_cases hw : 1 < windings
    · have hw' : ¬windings ≤ 1 := by omega
      simp only [if_pos hw, hw, hw', false_and, true_and, false_or]
      cases h2 : env.post c 2 with
      | none => simp [h2]
      | some q =>
        cases hq : q.wound with
        | true => simp [h2, hq]
        | false =>
          have hne : q ≠ p := by rintro rfl; rw [hp] at hq; exact absurd hq (by simp)
          by_cases hr : env.repetitions c = 1
          · simp [h2, hq, hr, hne]
          · simp [h2, hq, hr, hne]
    · have hw' : windings ≤ 1 := by omega
      simp only [if_neg hw, hw, hw', false_and, true_and, and_false, if_false, or_false]
      cases env.post c 1 <;> simp
  unfold evaluated Answerable
  constructor
  · intro h
    cases hp : wind env windings c with
    | none => simp [hp] at h
    | some p =>
      simp only [hp] at h
      by_cases h1 : p.wound = false
      · rw [if_pos h1] at h; exact absurd h (by simp)
      · rw [if_neg h1] at h
        by_cases h2 : rejected env flow p.design = true
        · rw [if_pos h2] at h; exact absurd h (by simp)
        · rw [if_neg h2] at h
          cases ht : total p.losses with
          | nan => simp [ht] at h
          | pinf => simp [ht] at h
          | ninf => simp [ht] at h
          | fin x =>
            simp only [ht] at h
            by_cases hx : 0 < x
            · simp only [if_pos hx, Option.some.injEq] at h
              subst h
              exact ⟨p, rfl, by simpa using h1, (total_sums _ _).mp ht, hx, (rejected_false env flow p.design).mp (by simpa using h2),
                (hwind p (by simpa using h1)).mp hp⟩
            · rw [if_neg hx] at h; exact absurd h (by simp)
  · rintro ⟨p, hd, hp, hs, hx, hf, hc⟩
    rw [(hwind p hp).mpr hc]
    have h2 := (rejected_false env flow p.design).mpr hf
    rw [hd] at h2
    simp only [hp, h2, (total_sums _ _).mpr hs, if_pos hx, hd, Bool.true_eq_false, Bool.false_eq_true, if_false]

/-- **C220.** What is answered: out of the cores left, those that may be answered, each once, by ascending losses, those of the same losses in
their order, as many as asked for. -/
theorem fast_answers (env : Env C M K) (flow : List (Op K)) (energy : Bool) (windings results : ℕ) (cores : List C) :
    ∃ ranked : List (M × K), fast env flow energy windings results cores = ranked.take results ∧ ranked.Pairwise (fun a b => a.2 ≤ b.2) ∧
      ranked.Perm ((env.turned (arranged env (storing env energy (capped results cores)))).filterMap (evaluated env flow windings)) ∧
      (∀ x : K, ranked.filter (fun e => decide (e.2 = x)) =
        ((env.turned (arranged env (storing env energy (capped results cores)))).filterMap (evaluated env flow windings)).filter
          (fun e => decide (e.2 = x))) ∧
      ∀ e ∈ fast env flow energy windings results cores,
        ∃ c ∈ env.turned (arranged env (storing env energy (capped results cores))), Answerable env flow windings c e := by
  have h1 : Std.Total (fun a b : M × K => a.2 ≤ b.2) := ⟨fun a b => le_total a.2 b.2⟩
  have h2 : IsTrans (M × K) (fun a b => a.2 ≤ b.2) := ⟨fun _ _ _ h1 h2 => le_trans h1 h2⟩
  refine ⟨_, rfl, List.pairwise_insertionSort _ _, List.perm_insertionSort _ _, fun x => ?_, ?_⟩
  · have hsub : ∀ l : List (M × K), (l.filter (fun e => decide (e.2 = x))).Sublist (l.insertionSort (fun a b => a.2 ≤ b.2)) := by
      intro l
      refine List.sublist_insertionSort ?_ List.filter_sublist
      rw [List.pairwise_iff_forall_sublist]
      intro a b hab
      have ha := hab.subset (by simp : a ∈ [a, b])
      have hb := hab.subset (by simp : b ∈ [a, b])
      simp only [List.mem_filter, decide_eq_true_eq] at ha hb
      rw [ha.2, hb.2]
    have := (hsub ((env.turned (arranged env (storing env energy (capped results cores)))).filterMap (evaluated env flow windings))).filter
      (fun e => decide (e.2 = x))
    rw [List.filter_filter] at this
    simp only [Bool.and_self] at this
    exact (this.eq_of_length ((List.perm_insertionSort _ _).filter _).length_eq.symm).symm
  · intro e he
    have := (List.perm_insertionSort _ _).mem_iff.mp (List.mem_of_mem_take he)
    obtain ⟨c, hc, hce⟩ := List.mem_filterMap.mp this
    exact ⟨c, hc, (evaluated_iff env flow windings c e).mp hce⟩

/-- **C220.** For topologies that store energy what is gapped, turned or wound is all the cores but the toroids of ferrite, in their
order; for others it is all. -/
theorem no_ferrite_toroid (env : Env C M K) (cores : List C) (results : ℕ) :
    (storing env true (capped results cores)).Sublist (capped results cores) ∧
    (∀ c ∈ capped results cores, c ∈ storing env true (capped results cores) ↔ ¬(env.toroidal c = true ∧ env.ferrite c = true)) ∧
    storing env false (capped results cores) = capped results cores := by
  refine ⟨?_, ?_, rfl⟩
  · simp only [storing, if_true]; exact List.filter_sublist
  · intro c hc
    simp only [storing, if_true, List.mem_filter, hc, true_and]
    cases env.toroidal c <;> cases env.ferrite c <;> simp

/-- **C221.** Up to ten results, asking for fewer gives the first of what asking for more gives. -/
theorem fewer_are_first (env : Env C M K) (flow : List (Op K)) (energy : Bool) (windings few many : ℕ) (cores : List C) (h : few ≤ many)
    (hten : many ≤ 10) : fast env flow energy windings few cores = (fast env flow energy windings many cores).take few := by
  have hc : ∀ n ≤ 10, capped n cores = cores.take 200 := by
    intro n hn
    unfold capped
    rw [show max (n * 20) 200 = 200 by omega]
  unfold fast
  rw [hc few (by omega), hc many hten, List.take_take, min_eq_left h]

/-- **C221.** The same for any numbers, when no more than two hundred cores, or twenty for each of the fewer results, are left. -/
theorem fewer_are_first_small (env : Env C M K) (flow : List (Op K)) (energy : Bool) (windings few many : ℕ) (cores : List C) (h : few ≤ many)
    (hsmall : cores.length ≤ max (few * 20) 200) :
    fast env flow energy windings few cores = (fast env flow energy windings many cores).take few := by
  have h1 : capped few cores = cores := List.take_of_length_le hsmall
  have h2 : capped many cores = cores := List.take_of_length_le (le_trans hsmall (by
    have := Nat.mul_le_mul_right 20 h
    omega))
  unfold fast
  rw [h1, h2, List.take_take, min_eq_left h]

/-- Cores for the cases: numbers; those below a bound do not fit. -/
def numbers (bound : ℕ) (bestOf : ℕ) : Env ℕ ℕ ℚ where
  toroidal := fun c => decide (c < bound)
  ferrite := fun _ => true
  gapped := id
  turned := id
  post := fun c level => some ⟨c, decide (level = 1 ∨ c % 2 = 0), [(some (.fin (if c = bestOf then 1 else 2)), some (.fin 1))]⟩
  repetitions := fun _ => 2
  evaluate := fun kind m => if kind = 0 then .answer (decide (m % 3 = 0)) (.fin 0) else .threw "no"

/-- Case of `fast_answers`: of six cores the multiples of three, one of them interleaved; the filter that throws and the one that is not
required do not count. -/
example : fast (numbers 0 6) [⟨0, true, false, true, 1⟩, ⟨1, true, false, true, 1⟩] false 2 2 [3, 4, 5, 6, 9] = [(6, 2), (3, 3)] := by
  decide +kernel

/-- **C220.** A strictly required filter that fails on every design lets every design through. -/
theorem unjudged_answered : fast (numbers 0 6) [⟨1, true, false, true, 1⟩] false 2 5 [3, 4] = [(3, 3), (4, 3)] ∧
    (numbers 0 6).evaluate 1 3 = .threw "no" ∧ (numbers 0 6).evaluate 1 4 = .threw "no" := by decide +kernel

/-- **C221.** Beyond ten results asking for fewer may miss the best design: the one of eleven results is not among ten. -/
theorem more_finds_better : (fast (numbers 0 210) [] false 1 10 (List.range 215)).head? = some (0, 3) ∧
    (fast (numbers 0 210) [] false 1 11 (List.range 215)).head? = some (210, 2) := by decide +kernel

/-- **C221.** The cap of candidates counts the ferrite toroids that are then left out: with two hundred of them first nothing is answered,
though the next core may be. -/
theorem starved : fast (numbers 200 0) [] true 1 10 (List.range 201) = [] ∧
    fast (numbers 200 0) [] true 1 10 [200] = [(200, 3)] := by decide +kernel

end Verif.Advice.Fast
