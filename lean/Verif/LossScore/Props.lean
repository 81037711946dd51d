import Mathlib.Tactic.Ring
import Mathlib.Tactic.Linarith
import Mathlib.Tactic.NormNum
import Mathlib.Algebra.BigOperators.Group.List.Basic
import Mathlib.Algebra.Order.Ring.Rat
import Mathlib.Algebra.Order.BigOperators.Group.List
import Verif.LossScore.Model

/-! # Properties of the score by losses -/

set_option linter.unusedSimpArgs false
set_option linter.unusedVariables false
set_option linter.unusedSectionVars false

namespace Verif.LossScore

open Verif.Filters

variable {K : Type} [Field K] [LinearOrder K] [IsStrictOrderedRing K] {P O : Type}

/-- Spec: the losses of a point can be computed, and are these. -/
structure Losses (core winding : P → Outcome K) (p : P) (c w : K) : Prop where
  core : core p = .value c
  winding : winding p = .value w

/-- Spec: each point has losses, of the core and of the windings. -/
def AllLosses (core winding : P → Outcome K) (ps : List P) (ls : List (K × K)) : Prop :=
  List.Forall₂ (fun p l => Losses core winding p l.1 l.2) ps ls

/-- Spec: these outputs have at `n` and after it the losses of a list and are otherwise as the old ones, or new. -/
structure Written (new : O) (n : Nat) (ls : List (K × K)) (old out : List (Output K O)) : Prop where
  length : out.length = if ls = [] then old.length else max old.length (n + ls.length)
  losses : ∀ j l, ls[j]? = some l → ∃ o, out[n + j]? = some o ∧ o.core = some l.1 ∧ o.winding = some l.2
  rest : ∀ j o, old[j]? = some o → ∃ o', out[j]? = some o' ∧ o'.rest = o.rest ∧ (j < n ∨ n + ls.length ≤ j → o' = o)
  fresh : ∀ j o, old.length ≤ j → out[j]? = some o → o.rest = new

theorem write_length (new : O) (n : Nat) (c w : K) (l : List (Output K O)) : (write new n c w l).length = max l.length (n + 1) := by
  simp [write, grow]; omega

theorem write_get (new : O) (n : Nat) (c w : K) (l : List (Output K O)) (j : Nat) :
    (write new n c w l)[j]? = if j = n then some ⟨some c, some w, (l[n]?.map Output.rest).getD new⟩
      else if j < l.length then l[j]? else if j < n then some ⟨none, none, new⟩ else none := by
  unfold write grow
  rw [List.getElem?_modify]
  by_cases h : j = n
  · subst h
    rw [if_pos rfl]
    by_cases hl : j < l.length
    · simp [List.getElem?_append, hl]
    · have : l[j]? = none := by simp [List.getElem?_eq_none, not_lt.1 hl]
      simp only [if_true, List.getElem?_append, if_neg hl, List.getElem?_replicate, this]
      rw [if_pos (by omega)]
      simp
  · rw [if_neg h]
    have hn' : ¬ n = j := fun e => h e.symm
    simp only [hn', if_false, Option.map_eq_map, Option.map_id', List.getElem?_append, List.getElem?_replicate]
    by_cases hl : j < l.length
    · simp [hl]
    · rw [if_neg hl, if_neg hl]
      by_cases hn : j < n
      · rw [if_pos hn, if_pos (by omega)]
      · rw [if_neg hn, if_neg (by omega)]

theorem walk_value (core winding : P → Outcome K) (new : O) (ps : List P) (ls : List (K × K)) (h : AllLosses core winding ps ls)
    (n : Nat) (s : K) (out : Option (List (Output K O))) :
    ∃ out', walk core winding new n ps s out = (.value (s + (ls.map fun l => l.1 + l.2).sum), out') ∧
      (out = none → out' = none) ∧ ∀ old, out = some old → ∃ l, out' = some l ∧ Written new n ls old l := by
  induction h generalizing n s out with
  | nil =>
    refine ⟨out, by simp [walk], fun h => h, fun old ho => ⟨old, ho, ?_⟩⟩
    refine ⟨by simp, by simp, fun j o h => ⟨o, h, rfl, fun _ => rfl⟩, fun j o hj h => ?_⟩
    rw [List.getElem?_eq_none hj] at h
    cases h
  | @cons p l ps ls hp _ ih =>
    obtain ⟨out', h1, h2, h3⟩ := ih (n + 1) (s + (l.2 + l.1)) (out.map (write new n l.1 l.2))
    refine ⟨out', ?_, ?_, ?_⟩
    · simp only [walk, hp.winding, hp.core, h1, List.map_cons, List.sum_cons]
      congr 2
      ring
    · rintro rfl
      exact h2 rfl
    · rintro old rfl
      obtain ⟨r, hr, w⟩ := h3 _ rfl
      refine ⟨r, hr, ?_, ?_, ?_, ?_⟩
      · rw [w.length, write_length]
        by_cases hl : ls = []
        · subst hl
          rw [if_pos rfl, if_neg (by simp)]
          simp
        · rw [if_neg hl, if_neg (by simp), List.length_cons]
          omega
      · intro j x hx
        cases j with
        | zero =>
          obtain rfl : l = x := by simpa using hx
          obtain ⟨o', ho, _, hk⟩ := w.rest n ⟨some l.1, some l.2, (old[n]?.map Output.rest).getD new⟩ (by rw [write_get, if_pos rfl])
          have := hk (Or.inl (Nat.lt_succ_self n))
          subst this
          exact ⟨_, ho, rfl, rfl⟩
        | succ j =>
          obtain ⟨o, ho, h⟩ := w.losses j x (by simpa using hx)
          exact ⟨o, by rw [← ho]; congr 1; omega, h⟩
      · intro j o ho
        have hj : j < old.length := by
          by_contra hc
          rw [List.getElem?_eq_none (not_lt.1 hc)] at ho
          cases ho
        by_cases hn : j = n
        · subst hn
          obtain ⟨o', h4, h5, _⟩ := w.rest j ⟨some l.1, some l.2, (old[j]?.map Output.rest).getD new⟩ (by rw [write_get, if_pos rfl])
          refine ⟨o', h4, by rw [h5, ho]; rfl, ?_⟩
          intro hc
          simp only [List.length_cons] at hc
          omega
        · obtain ⟨o', h4, h5, h6⟩ := w.rest j o (by rw [write_get, if_neg hn, if_pos hj, ho])
          refine ⟨o', h4, h5, fun hc => h6 ?_⟩
          simp only [List.length_cons] at hc
          omega
      · intro j o hj ho
        by_cases hk : (write new n l.1 l.2 old).length ≤ j
        · exact w.fresh j o hk ho
        · have hk' : j < (write new n l.1 l.2 old).length := not_le.1 hk
          obtain ⟨x, hx⟩ : ∃ x, (write new n l.1 l.2 old)[j]? = some x := ⟨_, List.getElem?_eq_getElem hk'⟩
          obtain ⟨o', h4, h5, _⟩ := w.rest j x hx
          rw [ho] at h4
          obtain rfl : o = o' := by simpa using h4
          rw [h5]
          rw [write_get] at hx
          by_cases hn : j = n
          · subst hn
            rw [if_pos rfl, List.getElem?_eq_none hj] at hx
            obtain rfl := Option.some.inj hx
            rfl
          · rw [if_neg hn, if_neg (not_lt.2 hj)] at hx
            by_cases hjn : j < n
            · rw [if_pos hjn] at hx
              obtain rfl := Option.some.inj hx
              rfl
            · rw [if_neg hjn] at hx
              cases hx

/-- **C426.** A component with as many windings as the first point has excitations is accepted, and its score is the mean over the points of
the losses of its core and its windings. -/
theorem score_mean (core winding : P → Outcome K) (new : O) (windings : Nat) (excitations : P → Nat) (p : P) (ps : List P)
    (ls : List (K × K)) (h : AllLosses core winding (p :: ps) ls) (he : excitations p = windings) (out : Option (List (Output K O))) :
    ∃ m, (evaluate core winding new windings excitations (p :: ps) out).1 = .value ⟨true, .num m⟩ ∧
      m * ((p :: ps).length : K) = (ls.map Prod.fst).sum + (ls.map Prod.snd).sum := by
  obtain ⟨out', h1, -, -⟩ := walk_value core winding new (p :: ps) ls h 0 0 out
  have hs : (ls.map fun l => l.1 + l.2).sum = (ls.map Prod.fst).sum + (ls.map Prod.snd).sum := by
    clear h h1
    induction ls with
    | nil => simp
    | cons l ls ih => simp only [List.map_cons, List.sum_cons, ih]; ring
  have hne : ((p :: ps).length : K) ≠ 0 := by
    have : (p :: ps).length ≠ 0 := by simp
    exact_mod_cast this
  refine ⟨(ls.map fun l => l.1 + l.2).sum / ((p :: ps).length : K), ?_, ?_⟩
  · have h0 : (p :: ps).head?.any (fun q => windings != excitations q) = false := by simp [he]
    simp only [evaluate, h0, h1, Outcome.bind, zero_add, Bool.false_eq_true, if_false]
    simp [mean]
  · rw [div_mul_cancel₀ _ hne, hs]

/-- **C426.** One with another number of windings is rejected, and neither losses nor outputs are touched; without points it is accepted and
its score is not a number. -/
theorem mismatch_rejected (core winding : P → Outcome K) (new : O) (windings : Nat) (excitations : P → Nat) (p : P) (ps : List P)
    (out : Option (List (Output K O))) (he : excitations p ≠ windings) :
    evaluate core winding new windings excitations (p :: ps) out = (.value ⟨false, .num 0⟩, out) ∧
      evaluate core winding new windings excitations [] out = (.value ⟨true, .nan⟩, out) := by
  have h0 : (p :: ps).head?.any (fun q => windings != excitations q) = true := by simpa [bne_iff_ne] using Ne.symm he
  refine ⟨by simp only [evaluate, h0, if_true, rejected], ?_⟩
  simp [evaluate, walk, Outcome.bind, mean]

/-- **C427.** The outputs of an accepted component hold the losses of each point at its place; what else was there stays, also the outputs
of more points than there are; and none are written where none are asked for. -/
theorem outputs_written (core winding : P → Outcome K) (new : O) (windings : Nat) (excitations : P → Nat) (ps : List P)
    (ls : List (K × K)) (h : AllLosses core winding ps ls) (he : ∀ p ∈ ps.head?, excitations p = windings) :
    (evaluate core winding new windings excitations ps (none : Option (List (Output K O)))).2 = none ∧
    ∀ old : List (Output K O), ∃ l, (evaluate core winding new windings excitations ps (some old)).2 = some l ∧ Written new 0 ls old l := by
  have h0 : ps.head?.any (fun q => windings != excitations q) = false := by
    cases ps with
    | nil => rfl
    | cons p ps => simp [he p rfl]
  constructor
  · obtain ⟨out', h1, h2, _⟩ := walk_value core winding new ps ls h 0 0 (none : Option (List (Output K O)))
    simp only [evaluate, h0, h1, Bool.false_eq_true, if_false]
    exact h2 rfl
  · intro old
    obtain ⟨out', h1, _, h3⟩ := walk_value core winding new ps ls h 0 0 (some old)
    obtain ⟨l, hl, w⟩ := h3 old rfl
    refine ⟨l, ?_, w⟩
    simp only [evaluate, h0, h1, Bool.false_eq_true, if_false]
    exact hl

/-- **C427.** If the losses of a later point throw, the outputs of the points before it stay written. -/
theorem left_half_written (core winding : P → Outcome K) (new : O) (windings : Nat) (excitations : P → Nat) (p : P) (before after : List P)
    (ls : List (K × K)) (h : AllLosses core winding before ls) (ht : winding p = .throws ∨ (∃ w, winding p = .value w) ∧ core p = .throws)
    (he : ∀ q ∈ (before ++ p :: after).head?, excitations q = windings) (old : List (Output K O)) :
    ∃ l, evaluate core winding new windings excitations (before ++ p :: after) (some old) = (.throws, some l) ∧ Written new 0 ls old l := by
  have key : ∀ (n : Nat) (s : K) (out : Option (List (Output K O))),
      walk core winding new n (before ++ p :: after) s out = (.throws, (walk core winding new n before s out).2) := by
    clear he
    induction h with
    | nil =>
      intro n s out
      rcases ht with ht | ⟨⟨w, hw⟩, ht⟩
      · simp [walk, ht]
      · simp [walk, ht, hw]
    | @cons q l qs ls hq _ ih =>
      intro n s out
      simp only [List.cons_append, walk, hq.winding, hq.core, ih]
  obtain ⟨out', h1, _, h3⟩ := walk_value core winding new before ls h 0 0 (some old)
  obtain ⟨l, hl, w⟩ := h3 old rfl
  have h0 : (before ++ p :: after).head?.any (fun q => windings != excitations q) = false := by
    cases hh : (before ++ p :: after).head? with
    | none => rfl
    | some q => simp [he q (by rw [hh]; rfl)]
  refine ⟨l, ?_, w⟩
  simp only [evaluate, h0, key, h1, Outcome.bind, Bool.false_eq_true, if_false, hl]

/-- **C428 (partial).** The score by losses and volume of a component with as many windings as excitations, whose losses are not kept, is the mean of
its losses times its volume. What is missing is that one with other windings is rejected: `mismatch_best`. -/
theorem product_partial (core winding : P → Outcome K) (new : O) (windings : Nat) (excitations : P → Nat) (p : P) (ps : List P)
    (ls : List (K × K)) (h : AllLosses core winding (p :: ps) ls) (he : excitations p = windings) (out : Option (List (Output K O))) (volume : K) :
    ∃ m, timesVolume core winding new windings excitations (p :: ps) out none volume = .value ⟨true, .num (m * volume)⟩ ∧
      m * ((p :: ps).length : K) = (ls.map Prod.fst).sum + (ls.map Prod.snd).sum := by
  obtain ⟨m, h1, h2⟩ := score_mean core winding new windings excitations p ps ls h he out
  exact ⟨m, by simp [timesVolume, h1, Outcome.bind, times], h2⟩

/-- **C428.** A component that the filter by losses rejects, as it has other windings than the point excitations, is accepted by that of losses
and volume with the score zero, and no component with losses and volume that are not negative scores less. -/
theorem mismatch_best (core winding : P → Outcome K) (new : O) (windings other : Nat) (excitations : P → Nat) (p : P) (ps : List P)
    (out : Option (List (Output K O))) (volume volume' : K) (he : excitations p ≠ windings) (ls : List (K × K)) (h : AllLosses core winding (p :: ps) ls)
    (hn : ∀ l ∈ ls, 0 ≤ l.1 ∧ 0 ≤ l.2) (hv : 0 ≤ volume') (he' : excitations p = other) :
    timesVolume core winding new windings excitations (p :: ps) out none volume = .value ⟨true, .num 0⟩ ∧
    ∃ x, timesVolume core winding new other excitations (p :: ps) out none volume' = .value ⟨true, .num x⟩ ∧ 0 ≤ x := by
  obtain ⟨m, h1, h2⟩ := product_partial core winding new other excitations p ps ls h he' out volume'
  refine ⟨?_, m * volume', h1, mul_nonneg ?_ hv⟩
  · have := (mismatch_rejected core winding new windings excitations p ps out he).1
    simp [timesVolume, this, Outcome.bind, times]
  · have hp : (0 : K) < ((p :: ps).length : K) := by
      have : 0 < (p :: ps).length := by simp
      exact_mod_cast this
    have h3 : 0 ≤ (ls.map Prod.fst).sum + (ls.map Prod.snd).sum := by
      refine add_nonneg (List.sum_nonneg ?_) (List.sum_nonneg ?_)
      · intro x hx
        obtain ⟨l, hl, rfl⟩ := List.mem_map.1 hx
        exact (hn l hl).1
      · intro x hx
        obtain ⟨l, hl, rfl⟩ := List.mem_map.1 hx
        exact (hn l hl).2
    rw [← h2] at h3
    exact nonneg_of_mul_nonneg_left h3 hp

example : AllLosses (K := ℚ) (fun n : Nat => .value n) (fun n : Nat => .value (2 * n)) [1, 3] [(1, 2), (3, 6)] :=
  .cons ⟨by norm_num, by norm_num⟩ (.cons ⟨by norm_num, by norm_num⟩ .nil)

end Verif.LossScore
