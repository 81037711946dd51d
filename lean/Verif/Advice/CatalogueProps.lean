import Verif.Advice.Catalogue
import Verif.Scoring.Props
import Mathlib.Algebra.Order.Field.Rat
import Mathlib.Data.List.Perm.Basic
import Mathlib.Data.List.Sort
import Mathlib.Tactic.Linarith
import Mathlib.Tactic.Ring
import Mathlib.Tactic.LinearCombination
import Mathlib.Tactic.FieldSimp
import Mathlib.Tactic.NormNum

/-!
# Advice out of a catalogue: C205–C210
-/

set_option linter.unusedSimpArgs false
set_option linter.unusedSectionVars false

namespace Verif.Advice

open Verif Verif.Scoring

variable {M R K : Type} [LinearOrder R] [Field K] [LinearOrder K]

/-! ## Specification -/

/-- A part goes through filters one after another: each answers, and accepts where that is asked for. -/
inductive Passes (env : Env M R K) (accepted : Bool) : List (Op K) → M → M → Prop
  | nil (m : M) : Passes env accepted [] m m
  | cons {op : Op K} {ops : List (Op K)} {m m' m'' : M} {valid : Bool} {score : Num K}
      (answer : env.evaluate op.kind m = (m', .answer valid score)) (ok : accepted = true → valid = true)
      (rest : Passes env accepted ops m' m'') : Passes env accepted (op :: ops) m m''

/-- A part fails with a message: the filters before accept it, and the next one throws it. -/
inductive Fails (env : Env M R K) (accepted : Bool) (message : String) : List (Op K) → M → Prop
  | here {op : Op K} {ops : List (Op K)} {m m' : M} (h : env.evaluate op.kind m = (m', .threw message)) :
      Fails env accepted message (op :: ops) m
  | later {op : Op K} {ops : List (Op K)} {m m' : M} {valid : Bool} {score : Num K}
      (answer : env.evaluate op.kind m = (m', .answer valid score)) (ok : accepted = true → valid = true)
      (rest : Fails env accepted message ops m') : Fails env accepted message (op :: ops) m

/-- `std::sort` by descending score: a permutation in descending order. -/
def SortsDown (sort : List (M × K) → List (M × K)) : Prop :=
  ∀ l, (sort l).Perm l ∧ (sort l).Pairwise (fun a b => b.2 ≤ a.2)

/-- The filters look at a part without changing it. -/
def Looks (env : Env M R K) : Prop := ∀ kind m, (env.evaluate kind m).1 = m

/-- The filters that gate, and the others. -/
abbrev gating (flow : List (Op K)) : List (Op K) := flow.filter Op.strict

@[inherit_doc gating]
abbrev ranking (flow : List (Op K)) : List (Op K) := flow.filter (fun op => !op.strict)

/-- What is left of a part after both rounds of filters. -/
def Keeps (env : Env M R K) (flow : List (Op K)) (strict : Bool) (keep : M → Option M) : Prop :=
  ∀ m m', keep m = some m' ↔ ∃ m1, Passes env strict (gating flow) m m1 ∧ Passes env false (ranking flow) m1 m'

/-! ## Lemmas -/

theorem gates_some (env : Env M R K) (strict : Bool) (ops : List (Op K)) : ∀ (m m' : M) (st : Streak) (sc : Scores R K),
    (gates env strict ops m st sc).2.2 = some m' ↔ Passes env strict ops m m' := by
  induction ops with
  | nil =>
    intro m m' st sc
    simp only [gates, Option.some.injEq]
    constructor
    · rintro rfl; exact .nil _
    · intro h; cases h; rfl
  | cons op ops ih =>
    intro m m' st sc
    simp only [gates]
    rcases he : env.evaluate op.kind m with ⟨m1, ⟨valid, score⟩ | message⟩
    · simp only
      by_cases hc : strict = true ∧ valid = false
      · rw [if_pos hc]
        constructor
        · intro h; exact absurd h (by simp)
        · intro h
          cases h with
          | cons answer ok rest =>
            rw [he] at answer
            simp only [Prod.mk.injEq, Eval.answer.injEq] at answer
            obtain ⟨_, rfl, _⟩ := answer
            have := ok hc.1
            rw [hc.2] at this
            exact absurd this (by decide)
      · rw [if_neg hc, ih]
        constructor
        · intro h
          refine .cons he ?_ h
          intro hs
          cases valid with
          | true => rfl
          | false => exact absurd ⟨hs, rfl⟩ hc
        · intro h
          cases h with
          | cons answer ok rest =>
            rw [he] at answer
            simp only [Prod.mk.injEq, Eval.answer.injEq] at answer
            obtain ⟨rfl, _, _⟩ := answer
            exact rest
    · simp only
      constructor
      · intro h; exact absurd h (by simp)
      · intro h
        cases h with
        | cons answer ok rest =>
          rw [he] at answer
          simp at answer

theorem ranks_some (env : Env M R K) (ops : List (Op K)) : ∀ (m m' : M) (sc : Scores R K) (failed : List (ℕ × R)),
    (ranks env ops m sc failed).2.2 = some m' ↔ Passes env false ops m m' := by
  induction ops with
  | nil =>
    intro m m' sc failed
    simp only [ranks, Option.some.injEq]
    constructor
    · rintro rfl; exact .nil _
    · intro h; cases h; rfl
  | cons op ops ih =>
    intro m m' sc failed
    simp only [ranks]
    rcases he : env.evaluate op.kind m with ⟨m1, ⟨valid, score⟩ | message⟩
    · simp only
      rw [ih]
      constructor
      · intro h; exact .cons he (by simp) h
      · intro h
        cases h with
        | cons answer ok rest =>
          rw [he] at answer
          simp only [Prod.mk.injEq, Eval.answer.injEq] at answer
          obtain ⟨rfl, _, _⟩ := answer
          exact rest
    · simp only
      constructor
      · intro h; exact absurd h (by simp)
      · intro h
        cases h with
        | cons answer ok rest =>
          rw [he] at answer
          simp at answer

/-- The part after the gates, whatever was recorded before. -/
def gated (env : Env M R K) (strict : Bool) (ops : List (Op K)) (m : M) : Option M := (gates env strict ops m .zero []).2.2

theorem gates_gated (env : Env M R K) (strict : Bool) (ops : List (Op K)) (m : M) (st : Streak) (sc : Scores R K) :
    (gates env strict ops m st sc).2.2 = gated env strict ops m := by
  apply Option.ext
  intro m'
  simp only [gated, gates_some]

/-- The part after the other filters, whatever was recorded before. -/
def rated (env : Env M R K) (ops : List (Op K)) (m : M) : Option M := (ranks env ops m [] []).2.2

theorem ranks_rated (env : Env M R K) (ops : List (Op K)) (m : M) (sc : Scores R K) (failed : List (ℕ × R)) :
    (ranks env ops m sc failed).2.2 = rated env ops m := by
  apply Option.ext
  intro m'
  simp only [rated, ranks_some]

theorem gateLoop_passed (env : Env M R K) (strict : Bool) (ops : List (Op K)) (parts : List M) :
    ∀ (st : Streak) (sc : Scores R K) (acc ps : List M) (sc' : Scores R K),
    gateLoop env strict ops parts st sc acc = .passed ps sc' → ps = acc ++ parts.filterMap (gated env strict ops) := by
  induction parts with
  | nil =>
    intro st sc acc ps sc' h
    simp only [gateLoop, Gated.passed.injEq] at h
    simp [h.1]
  | cons m ms ih =>
    intro st sc acc ps sc' h
    simp only [gateLoop] at h
    split at h
    · exact absurd h (by simp)
    · have := ih _ _ _ _ _ h
      rw [this, gates_gated]
      cases hg : gated env strict ops m <;> simp [List.filterMap_cons, hg]

theorem rankLoop_kept (env : Env M R K) (ops : List (Op K)) (parts : List M) :
    ∀ (sc : Scores R K) (failed : List (ℕ × R)) (acc : List M),
    (rankLoop env ops parts sc failed acc).2.2 = acc ++ parts.filterMap (rated env ops) := by
  induction parts with
  | nil => intro sc failed acc; simp [rankLoop]
  | cons m ms ih =>
    intro sc failed acc
    simp only [rankLoop]
    rw [ih, ranks_rated]
    cases hg : rated env ops m <;> simp [List.filterMap_cons, hg]

theorem filterMap_keeps {env : Env M R K} {flow : List (Op K)} {strict : Bool} {keep : M → Option M} (hk : Keeps env flow strict keep)
    (parts : List M) :
    (parts.filterMap (gated env strict (gating flow))).filterMap (rated env (ranking flow)) = parts.filterMap keep := by
  rw [List.filterMap_filterMap]
  congr 1
  funext m
  apply Option.ext
  intro m'
  rw [hk m m', Option.bind_eq_some_iff]
  simp only [gated, rated, gates_some, ranks_some]

/-- The two rounds of a call leave exactly what is kept of the parts, in order. -/
theorem rounds {env : Env M R K} {flow : List (Op K)} {strict : Bool} {keep : M → Option M} (hk : Keeps env flow strict keep)
    {parts ps : List M} {sc : Scores R K} (h : gateLoop env strict (gating flow) parts .zero [] [] = .passed ps sc) :
    (rankLoop env (ranking flow) ps sc [] []).2.2 = parts.filterMap keep := by
  have h1 := gateLoop_passed env strict (gating flow) parts _ _ _ _ _ h
  rw [rankLoop_kept, h1]
  simp only [List.nil_append]
  exact filterMap_keeps hk parts

theorem scored_spec (env : Env M R K) (flow : List (Op K)) (failed : List (ℕ × R)) (sc : Scores R K) (ms : List M) :
    ∀ l, scored env flow failed sc ms = some l →
      l.map Prod.fst = ms ∧ ∀ x ∈ l, total env.lg flow failed sc (env.reference x.1) = some x.2 := by
  induction ms with
  | nil =>
    intro l h
    simp only [scored, Option.some.injEq] at h
    subst h
    simp
  | cons m ms ih =>
    intro l h
    simp only [scored] at h
    cases ht : total env.lg flow failed sc (env.reference m) with
    | none => simp [ht] at h
    | some t =>
      cases hr : scored env flow failed sc ms with
      | none => simp [ht, hr] at h
      | some r =>
        simp only [ht, hr, Option.some.injEq] at h
        subst h
        obtain ⟨h1, h2⟩ := ih r hr
        refine ⟨by simp [h1], ?_⟩
        intro x hx
        rcases List.mem_cons.mp hx with rfl | hx
        · exact ht
        · exact h2 x hx

/-- What is shown of parts in their order of scores: the first `n`, simulated when asked for. -/
def shown (env : Env M R K) (n : ℕ) (simulate : Bool) (ranked : List (M × K)) : List (M × K) :=
  if simulate then (ranked.take n).filterMap (fun x => (env.simulate x.1).map (fun m => (m, x.2))) else ranked.take n

theorem cut_eq {α : Type} (n : ℕ) (l : List α) : cut n l = l.take n := by
  unfold cut
  split
  · rfl
  · rename_i h; rw [List.take_of_length_le (by omega)]

theorem present_spec {env : Env M R K} (hs : SortsDown env.sort) (flow : List (Op K)) (n : ℕ) (simulate : Bool) (failed : List (ℕ × R))
    (sc : Scores R K) (valid : List M) (l : List (M × K)) (h : present env flow n simulate failed sc valid = .advised l) :
    ∃ (ranked : List (M × K)) (score : R → K), (ranked.map Prod.fst).Perm valid ∧ ranked.Pairwise (fun a b => b.2 ≤ a.2) ∧
      (∀ x ∈ ranked, x.2 = score (env.reference x.1)) ∧ l = shown env n simulate ranked := by
  simp only [present] at h
  cases hl : scored env flow failed sc valid with
  | none => simp [hl] at h
  | some r =>
    simp only [hl, Outcome.advised.injEq] at h
    obtain ⟨h1, h2⟩ := scored_spec env flow failed sc valid r hl
    obtain ⟨hp, hd⟩ := hs r
    refine ⟨env.sort r, fun name => (total env.lg flow failed sc name).getD 0, ?_, hd, ?_, ?_⟩
    · rw [← h1]; exact hp.map _
    · intro x hx
      simp only [h2 x (hp.mem_iff.mp hx), Option.getD_some]
    · rw [← h, cut_eq]
      unfold simulated shown
      rfl

theorem keeps_nil {env : Env M R K} {flow : List (Op K)} {strict : Bool} :
    Keeps env flow strict (fun m => (gated env strict (gating flow) m).bind (rated env (ranking flow))) := by
  intro m m'
  simp only [Option.bind_eq_some_iff, gated, rated, gates_some, ranks_some]

/-! ## C205: which parts are advised -/

/-- **C205.** The relaxed call shows the parts none of whose filters threw, best score first, at most `n` of them; parts are scored by
their references. -/
theorem relaxed_advised {env : Env M R K} (hs : SortsDown env.sort) {flow : List (Op K)} {keep : M → Option M}
    (hk : Keeps env flow false keep) (n : ℕ) (simulate : Bool) (parts : List M) (l : List (M × K))
    (h : relaxed env flow n simulate parts = .advised l) :
    ∃ (ranked : List (M × K)) (score : R → K), (ranked.map Prod.fst).Perm (parts.filterMap keep) ∧
      ranked.Pairwise (fun a b => b.2 ≤ a.2) ∧ (∀ x ∈ ranked, x.2 = score (env.reference x.1)) ∧ l = shown env n simulate ranked := by
  simp only [relaxed] at h
  by_cases he : parts.isEmpty = true
  · rw [if_pos he] at h
    simp only [Outcome.advised.injEq] at h
    rw [List.isEmpty_iff] at he
    subst he; subst h
    exact ⟨[], fun _ => 0, by simp, by simp, by simp, by simp [shown]⟩
  · rw [if_neg he] at h
    cases hg : gateLoop env false (flow.filter Op.strict) parts .zero [] [] with
    | aborted c msg => simp [hg] at h
    | passed ps sc =>
      simp only [hg] at h
      have hr := rounds hk hg
      simp only [ranking] at hr
      rw [hr] at h
      by_cases hv : (parts.filterMap keep).isEmpty = true
      · rw [if_pos hv] at h
        simp only [Outcome.advised.injEq] at h
        rw [List.isEmpty_iff] at hv
        subst h
        exact ⟨[], fun _ => 0, by simp [hv], by simp, by simp, by simp [shown]⟩
      · rw [if_neg hv] at h
        exact present_spec hs flow n simulate _ _ _ l h

/-- **C205.** The strict call shows the parts that every gating filter accepted and no filter threw on, best score first, at most `n` of
them, as soon as there is one. -/
theorem strict_advised {env : Env M R K} (hs : SortsDown env.sort) {flow : List (Op K)} {keep : M → Option M}
    (hk : Keeps env flow true keep) (n : ℕ) (simulate : Bool) (parts : List M) (l : List (M × K))
    (h : advise env flow n simulate true parts = .advised l) (hne : parts.filterMap keep ≠ []) :
    ∃ (ranked : List (M × K)) (score : R → K), (ranked.map Prod.fst).Perm (parts.filterMap keep) ∧
      ranked.Pairwise (fun a b => b.2 ≤ a.2) ∧ (∀ x ∈ ranked, x.2 = score (env.reference x.1)) ∧ l = shown env n simulate ranked := by
  simp only [advise, if_true] at h
  by_cases he : parts.isEmpty = true
  · rw [List.isEmpty_iff] at he
    subst he
    exact absurd rfl hne
  · rw [if_neg he] at h
    cases hg : gateLoop env true (flow.filter Op.strict) parts .zero [] [] with
    | aborted c msg => simp [hg] at h
    | passed ps sc =>
      simp only [hg] at h
      have hr := rounds hk hg
      simp only [ranking] at hr
      rw [hr] at h
      have hv : ¬ (parts.filterMap keep).isEmpty = true := by rw [List.isEmpty_iff]; exact hne
      rw [if_neg hv] at h
      exact present_spec hs flow n simulate _ _ _ l h

theorem shown_mem {env : Env M R K} {n : ℕ} {simulate : Bool} {ranked : List (M × K)} {x : M × K} (h : x ∈ shown env n simulate ranked) :
    ∃ m, (m, x.2) ∈ ranked ∧ (if simulate then env.simulate m = some x.1 else x.1 = m) := by
  unfold shown at h
  cases simulate with
  | true =>
    simp only [if_true, List.mem_filterMap] at h
    obtain ⟨y, hy, h⟩ := h
    cases hm : env.simulate y.1 with
    | none => simp [hm] at h
    | some m =>
      simp only [hm, Option.map_some, Option.some.injEq] at h
      subst h
      exact ⟨y.1, List.mem_of_mem_take hy, by simp [hm]⟩
  | false =>
    simp only [Bool.false_eq_true, if_false] at h
    exact ⟨x.1, List.mem_of_mem_take h, by simp⟩

/-- **C205.** At most as many parts as asked for, best first. -/
theorem advised_few {env : Env M R K} (hs : SortsDown env.sort) (flow : List (Op K)) (n : ℕ) (simulate strict : Bool) (parts : List M)
    (l : List (M × K)) (h : advise env flow n simulate strict parts = .advised l) :
    l.length ≤ n ∧ l.Pairwise (fun a b => b.2 ≤ a.2) := by
  have key : ∀ (ranked : List (M × K)), ranked.Pairwise (fun a b => b.2 ≤ a.2) → l = shown env n simulate ranked →
      l.length ≤ n ∧ l.Pairwise (fun a b => b.2 ≤ a.2) := by
    intro ranked hd hl
    have ht : (ranked.take n).Pairwise (fun a b => b.2 ≤ a.2) := hd.sublist (List.take_sublist _ _)
    have hlen : (ranked.take n).length ≤ n := by rw [List.length_take]; omega
    subst hl
    unfold shown
    cases simulate with
    | true =>
      simp only [if_true]
      refine ⟨(List.length_filterMap_le _ _).trans hlen, ?_⟩
      refine List.Pairwise.filterMap _ ?_ ht
      intro a b hab a' ha b' hb
      obtain ⟨m, _, rfl⟩ := Option.map_eq_some_iff.mp ha
      obtain ⟨m', _, rfl⟩ := Option.map_eq_some_iff.mp hb
      exact hab
    | false => simp only [Bool.false_eq_true, if_false]; exact ⟨hlen, ht⟩
  cases strict with
  | false =>
    simp only [advise, Bool.false_eq_true, if_false] at h
    obtain ⟨ranked, _, _, hd, _, hl⟩ := relaxed_advised hs keeps_nil n simulate parts l h
    exact key ranked hd hl
  | true =>
    by_cases hne : parts.filterMap (fun m => (gated env true (gating flow) m).bind (rated env (ranking flow))) = []
    · simp only [advise, if_true] at h
      by_cases he : parts.isEmpty = true
      · rw [if_pos he] at h
        simp only [Outcome.advised.injEq] at h
        subst h
        simp
      · rw [if_neg he] at h
        cases hg : gateLoop env true (flow.filter Op.strict) parts .zero [] [] with
        | aborted c msg => simp [hg] at h
        | passed ps sc =>
          simp only [hg] at h
          have hr := rounds (keeps_nil (flow := flow)) hg
          simp only [ranking] at hr hne
          rw [hr, hne] at h
          simp only [List.isEmpty_nil, if_true] at h
          by_cases hp : ps.isEmpty = true
          · rw [if_pos hp] at h
            simp only [Outcome.advised.injEq] at h
            subst h
            simp
          · rw [if_neg hp] at h
            obtain ⟨ranked, _, _, hd, _, hl⟩ := relaxed_advised hs keeps_nil n simulate ps l h
            exact key ranked hd hl
    · obtain ⟨ranked, _, _, hd, _, hl⟩ := strict_advised hs keeps_nil n simulate parts l h hne
      exact key ranked hd hl

/-! ## C206: the relaxed retry -/

theorem passes_looks {env : Env M R K} (hl : Looks env) {b : Bool} {ops : List (Op K)} {m m' : M} (h : Passes env b ops m m') :
    m' = m := by
  induction h with
  | nil => rfl
  | @cons op ops m m1 m2 valid score answer ok rest ih =>
    have := hl op.kind m
    rw [answer] at this
    rw [ih]
    exact this

/-- **C206.** When no part meets every strict requirement without an error, a strict call advises nothing: relaxing the gates and trying
the same parts again finds nothing either, if the filters only look at the parts. -/
theorem retry_finds_nothing {env : Env M R K} (hs : SortsDown env.sort) (hl : Looks env) {flow : List (Op K)} {keep : M → Option M}
    (hk : Keeps env flow true keep) (n : ℕ) (simulate : Bool) (parts : List M) (hnone : parts.filterMap keep = []) (l : List (M × K))
    (h : advise env flow n simulate true parts = .advised l) : l = [] := by
  simp only [advise, if_true] at h
  by_cases he : parts.isEmpty = true
  · rw [if_pos he] at h
    simp only [Outcome.advised.injEq] at h
    exact h.symm
  · rw [if_neg he] at h
    cases hg : gateLoop env true (flow.filter Op.strict) parts .zero [] [] with
    | aborted c msg => simp [hg] at h
    | passed ps sc =>
      simp only [hg] at h
      have hr := rounds hk hg
      simp only [ranking] at hr
      rw [hr, hnone] at h
      simp only [List.isEmpty_nil, if_true] at h
      by_cases hp : ps.isEmpty = true
      · rw [if_pos hp] at h
        simp only [Outcome.advised.injEq] at h
        exact h.symm
      · rw [if_neg hp] at h
        obtain ⟨ranked, _, hperm, _, _, hl'⟩ := relaxed_advised hs keeps_nil n simulate ps l h
        have hps := gateLoop_passed _ _ _ _ _ _ _ _ _ hg
        simp only [List.nil_append] at hps
        have hempty : ps.filterMap (fun m => (gated env false (gating flow) m).bind (rated env (ranking flow))) = [] := by
          rw [List.filterMap_eq_nil_iff]
          intro p hpm
          by_contra hc
          obtain ⟨m', hm'⟩ := Option.ne_none_iff_exists'.mp hc
          obtain ⟨m1, h1, h2⟩ := (keeps_nil p m').mp hm'
          rw [hps] at hpm
          obtain ⟨m, hm, hmp⟩ := List.mem_filterMap.mp hpm
          have h3 := (gates_some env true _ m p _ _).mp hmp
          have e1 := passes_looks hl h3
          have e2 := passes_looks hl h1
          subst e1
          rw [e2] at h2
          have : keep p = some m' := (hk p m').mpr ⟨p, h3, h2⟩
          rw [List.filterMap_eq_nil_iff] at hnone
          rw [hnone p hm] at this
          exact absurd this (by simp)
        rw [hempty, List.perm_nil, List.map_eq_nil_iff] at hperm
        rw [hl', hperm]
        simp [shown]

/-- **C205.** Whatever is advised by a strict call, be it relaxed on the way, is a part of the catalogue (or what its simulation makes of
it) that every gating filter accepted and no filter threw on, if the filters only look at the parts. -/
theorem advised_meets {env : Env M R K} (hs : SortsDown env.sort) (hl : Looks env) (flow : List (Op K)) (n : ℕ) (simulate : Bool)
    (parts : List M) (l : List (M × K)) (h : advise env flow n simulate true parts = .advised l) (x : M × K) (hx : x ∈ l) :
    ∃ m ∈ parts, Passes env true (gating flow) m m ∧ Passes env false (ranking flow) m m ∧
      (if simulate then env.simulate m = some x.1 else x.1 = m) := by
  by_cases hne : parts.filterMap (fun m => (gated env true (gating flow) m).bind (rated env (ranking flow))) = []
  · have := retry_finds_nothing hs hl keeps_nil n simulate parts hne l h
    subst this
    simp at hx
  · obtain ⟨ranked, score, hp, _, _, hlist⟩ := strict_advised hs keeps_nil n simulate parts l h hne
    rw [hlist] at hx
    obtain ⟨m2, hm2, hsim⟩ := shown_mem hx
    have : m2 ∈ ranked.map Prod.fst := List.mem_map.mpr ⟨_, hm2, rfl⟩
    rw [hp.mem_iff] at this
    obtain ⟨m, hm, hkm⟩ := List.mem_filterMap.mp this
    obtain ⟨m1, h1, h2⟩ := (keeps_nil m m2).mp hkm
    have e1 := passes_looks hl h1
    subst e1
    have e2 := passes_looks hl h2
    subst e2
    exact ⟨_, hm, h1, h2, hsim⟩

/-! ## C207: giving up after identical errors -/

theorem bump_message (st : Streak) (msg : String) : (st.bump msg).message = msg := by
  unfold Streak.bump
  split
  · rename_i h; exact h.symm
  · rfl

theorem bump_length (st : Streak) (msg : String) : 1 ≤ (st.bump msg).length ∧ (st.bump msg).length ≤ st.length + 1 := by
  unfold Streak.bump
  split <;> simp

theorem streak_cases (env : Env M R K) (strict : Bool) (ops : List (Op K)) : ∀ (m : M) (st : Streak) (sc : Scores R K),
    (gates env strict ops m st sc).1 = st ∨ (gates env strict ops m st sc).1 = .zero ∨
      ∃ msg, Fails env strict msg ops m ∧
        ((gates env strict ops m st sc).1 = st.bump msg ∨ (gates env strict ops m st sc).1 = Streak.zero.bump msg) := by
  induction ops with
  | nil => intro m st sc; left; rfl
  | cons op ops ih =>
    intro m st sc
    simp only [gates]
    rcases he : env.evaluate op.kind m with ⟨m1, ⟨valid, score⟩ | message⟩
    · simp only
      by_cases hc : strict = true ∧ valid = false
      · rw [if_pos hc]; left; rfl
      · rw [if_neg hc]
        right
        have ok : strict = true → valid = true := by
          intro hs
          cases valid with
          | true => rfl
          | false => exact absurd ⟨hs, rfl⟩ hc
        rcases ih m1 .zero (record sc op.kind (env.reference m1) score) with h | h | ⟨msg, hf, h⟩
        · left; exact h
        · left; exact h
        · right
          refine ⟨msg, .later he ok hf, Or.inr ?_⟩
          rcases h with h | h <;> exact h
    · simp only
      right; right
      exact ⟨message, .here he, Or.inl rfl⟩

theorem gateLoop_aborted (env : Env M R K) (strict : Bool) (ops : List (Op K)) (parts : List M) :
    ∀ (st : Streak) (sc : Scores R K) (acc pre : List M) (c : ℕ) (msg : String), pre.length = st.length → st.length < 8 →
    (∀ m ∈ pre, Fails env strict st.message ops m) → gateLoop env strict ops parts st sc acc = .aborted c msg →
    c = 8 ∧ ∃ sub : List M, sub.Sublist (pre ++ parts) ∧ sub.length = 8 ∧ ∀ m ∈ sub, Fails env strict msg ops m := by
  induction parts with
  | nil => intro st sc acc pre c msg _ _ _ h; simp [gateLoop] at h
  | cons m ms ih =>
    intro st sc acc pre c msg hpre hlt hall h
    have step : ∃ pre' : List M, pre'.length = (gates env strict ops m st sc).1.length ∧ (gates env strict ops m st sc).1.length ≤ 8 ∧
        (∀ x ∈ pre', Fails env strict (gates env strict ops m st sc).1.message ops x) ∧ pre'.Sublist (pre ++ [m]) := by
      rcases streak_cases env strict ops m st sc with h1 | h1 | ⟨msg', hf, h1 | h1⟩
      · rw [h1]; exact ⟨pre, hpre, by omega, hall, List.sublist_append_left _ _⟩
      · rw [h1]; exact ⟨[], rfl, by simp [Streak.zero], by simp, List.nil_sublist _⟩
      · rw [h1, bump_message]
        unfold Streak.bump
        by_cases hm : msg' = st.message
        · rw [if_pos hm]
          refine ⟨pre ++ [m], by simp [hpre], by simp only; omega, ?_, List.Sublist.refl _⟩
          intro x hx
          rcases List.mem_append.mp hx with hx | hx
          · rw [hm]; exact hall x hx
          · rw [List.mem_singleton.mp hx]; exact hf
        · rw [if_neg hm]
          refine ⟨[m], rfl, by simp, ?_, List.sublist_append_right _ _⟩
          intro x hx
          rw [List.mem_singleton.mp hx]; exact hf
      · rw [h1, bump_message]
        have hb := bump_length Streak.zero msg'
        have h0 : Streak.zero.length = 0 := rfl
        refine ⟨[m], by simp; omega, by omega, ?_, List.sublist_append_right _ _⟩
        intro x hx
        rw [List.mem_singleton.mp hx]; exact hf
    obtain ⟨pre', hl', hle, hall', hsub⟩ := step
    simp only [gateLoop] at h
    split at h
    · rename_i hb
      simp only [bailThreshold] at hb
      simp only [Gated.aborted.injEq] at h
      obtain ⟨rfl, rfl⟩ := h
      refine ⟨by omega, pre', ?_, by omega, hall'⟩
      exact hsub.trans (by
        have : pre ++ m :: ms = (pre ++ [m]) ++ ms := by simp
        rw [this]; exact List.sublist_append_left _ _)
    · rename_i hb
      simp only [bailThreshold, not_le] at hb
      obtain ⟨hc, sub, hs1, hs2, hs3⟩ := ih _ _ _ pre' c msg hl' hb hall' h
      refine ⟨hc, sub, ?_, hs2, hs3⟩
      have : pre ++ m :: ms = (pre ++ [m]) ++ ms := by simp
      rw [this]
      exact hs1.trans (hsub.append (List.Sublist.refl _))

theorem passes_not_fails {env : Env M R K} {b c : Bool} {ops : List (Op K)} {m m' : M} {msg : String} (h : Passes env b ops m m') :
    ¬ Fails env c msg ops m := by
  induction h with
  | nil => intro h; cases h
  | cons answer ok rest ih =>
    intro h
    cases h with
    | here h => rw [answer] at h; simp at h
    | later h ok' rest' =>
      rw [answer] at h
      simp only [Prod.mk.injEq, Eval.answer.injEq] at h
      obtain ⟨rfl, _, _⟩ := h
      exact ih rest'

/-- **C207.** A call that gives up counts eight errors, and eight parts of the catalogue fail with the error it reports, if the filters
only look at the parts.

Partial: the message says that they are consecutive, which `aborted_not_consecutive` refutes. -/
theorem aborted_partial (env : Env M R K) (hl : Looks env) (flow : List (Op K)) (n : ℕ) (simulate strict : Bool) (parts : List M)
    (c : ℕ) (msg : String) (h : advise env flow n simulate strict parts = .aborted c msg) :
    c = 8 ∧ ∃ sub : List M, sub.Sublist parts ∧ sub.length = 8 ∧ ∀ m ∈ sub, Fails env strict msg (gating flow) m := by
  have fin : ∀ (b : Bool) (parts : List M), gateLoop env b (gating flow) parts .zero [] [] = .aborted c msg →
      c = 8 ∧ ∃ sub : List M, sub.Sublist parts ∧ sub.length = 8 ∧ ∀ m ∈ sub, Fails env b msg (gating flow) m := by
    intro b parts hb
    have := gateLoop_aborted env b (gating flow) parts .zero [] [] [] c msg rfl (by simp [Streak.zero]) (by simp) hb
    simpa using this
  have hpres : ∀ (fl : List (ℕ × R)) (sc : Scores R K) (v : List M), present env flow n simulate fl sc v ≠ .aborted c msg := by
    intro fl sc v hp
    unfold present at hp
    split at hp <;> simp at hp
  cases strict with
  | false =>
    simp only [advise, Bool.false_eq_true, if_false, relaxed] at h
    by_cases he : parts.isEmpty = true
    · rw [if_pos he] at h; simp at h
    · rw [if_neg he] at h
      cases hg : gateLoop env false (flow.filter Op.strict) parts .zero [] [] with
      | aborted c' msg' =>
        simp only [hg, Outcome.aborted.injEq] at h
        obtain ⟨rfl, rfl⟩ := h
        exact fin false parts hg
      | passed ps sc =>
        simp only [hg] at h
        split at h
        · simp at h
        · exact absurd h (hpres _ _ _)
  | true =>
    simp only [advise, if_true] at h
    by_cases he : parts.isEmpty = true
    · rw [if_pos he] at h; simp at h
    · rw [if_neg he] at h
      cases hg : gateLoop env true (flow.filter Op.strict) parts .zero [] [] with
      | aborted c' msg' =>
        simp only [hg, Outcome.aborted.injEq] at h
        obtain ⟨rfl, rfl⟩ := h
        exact fin true parts hg
      | passed ps sc =>
        simp only [hg] at h
        have hps := gateLoop_passed _ _ _ _ _ _ _ _ _ hg
        simp only [List.nil_append] at hps
        split at h
        · split at h
          · simp at h
          · simp only [relaxed] at h
            split at h
            · simp at h
            · cases hg2 : gateLoop env false (flow.filter Op.strict) ps .zero [] [] with
              | aborted c' msg' =>
                simp only [hg2, Outcome.aborted.injEq] at h
                obtain ⟨rfl, rfl⟩ := h
                obtain ⟨_, sub, hs1, hs2, hs3⟩ := fin false ps hg2
                cases sub with
                | nil => simp at hs2
                | cons x rest =>
                  have hx : x ∈ ps := hs1.subset List.mem_cons_self
                  rw [hps] at hx
                  obtain ⟨m, _, hmp⟩ := List.mem_filterMap.mp hx
                  have h3 := (gates_some env true _ m x _ _).mp hmp
                  have e1 := passes_looks hl h3
                  subst e1
                  exact absurd (hs3 x List.mem_cons_self) (passes_not_fails h3)
              | passed ps' sc' =>
                simp only [hg2] at h
                split at h
                · simp at h
                · exact absurd h (hpres _ _ _)
        · exact absurd h (hpres _ _ _)

theorem gates_first_throws {env : Env M R K} {strict : Bool} {op : Op K} {ops : List (Op K)} {m : M} {msg : String}
    (h : ∃ m', env.evaluate op.kind m = (m', .threw msg)) (st : Streak) (sc : Scores R K) :
    gates env strict (op :: ops) m st sc = (st.bump msg, sc, none) := by
  obtain ⟨m', h⟩ := h
  simp only [gates, h]

theorem block_aborts {env : Env M R K} {strict : Bool} {op : Op K} {ops : List (Op K)} {msg : String} (rest : List M) (b : List M) :
    ∀ (st : Streak) (sc : Scores R K) (acc : List M), (∀ m ∈ b, ∃ m', env.evaluate op.kind m = (m', .threw msg)) →
    st.message = msg → st.length < 8 → 8 ≤ st.length + b.length →
    gateLoop env strict (op :: ops) (b ++ rest) st sc acc = .aborted 8 msg := by
  induction b with
  | nil => intro st sc acc _ _ h1 h2; simp at h2; omega
  | cons m ms ih =>
    intro st sc acc hall hm h1 h2
    have hb : st.bump msg = ⟨msg, st.length + 1⟩ := by unfold Streak.bump; rw [hm, if_pos rfl]
    simp only [List.cons_append, gateLoop, gates_first_throws (hall m List.mem_cons_self), hb, bailThreshold]
    by_cases h8 : 8 ≤ st.length + 1
    · rw [if_pos h8]
      have : st.length + 1 = 8 := by omega
      rw [this]
    · rw [if_neg h8]
      refine ih _ _ _ (fun x hx => hall x (List.mem_cons_of_mem _ hx)) rfl (by simp; omega) ?_
      simp only [List.length_cons] at h2
      simp only
      omega

theorem prefix_aborts {env : Env M R K} {strict : Bool} {op : Op K} {ops : List (Op K)} {msg : String} (rest : List M) (b : List M)
    (hb : ∀ m ∈ b, ∃ m', env.evaluate op.kind m = (m', .threw msg)) (h8 : 8 ≤ b.length) (a : List M) :
    ∀ (st : Streak) (sc : Scores R K) (acc : List M), st.length < 8 →
    ∃ msg', gateLoop env strict (op :: ops) (a ++ b ++ rest) st sc acc = .aborted 8 msg' := by
  induction a with
  | nil =>
    intro st sc acc hlt
    cases b with
    | nil => simp at h8
    | cons m ms =>
      simp only [List.nil_append, List.cons_append, gateLoop, gates_first_throws (hb m List.mem_cons_self), bailThreshold]
      have hl := bump_length st msg
      by_cases hc : 8 ≤ (st.bump msg).length
      · rw [if_pos hc]
        exact ⟨_, by rw [show (st.bump msg).length = 8 by omega]⟩
      · rw [if_neg hc]
        refine ⟨msg, block_aborts rest ms _ _ _ (fun x hx => hb x (List.mem_cons_of_mem _ hx)) (bump_message _ _) (by omega) ?_⟩
        simp only [List.length_cons] at h8
        omega
  | cons m ms ih =>
    intro st sc acc hlt
    simp only [List.cons_append, gateLoop]
    by_cases hc : bailThreshold ≤ (gates env strict (op :: ops) m st sc).1.length
    · rw [if_pos hc]
      simp only [bailThreshold] at hc
      have : (gates env strict (op :: ops) m st sc).1.length ≤ 8 := by
        rcases streak_cases env strict (op :: ops) m st sc with h1 | h1 | ⟨msg', _, h1 | h1⟩ <;> rw [h1]
        · omega
        · simp [Streak.zero]
        · have := bump_length st msg'; omega
        · have := bump_length Streak.zero msg'
          have h0 : Streak.zero.length = 0 := rfl
          omega
      exact ⟨_, by rw [show (gates env strict (op :: ops) m st sc).1.length = 8 by omega]⟩
    · rw [if_neg hc]
      simp only [bailThreshold] at hc
      have := ih (gates env strict (op :: ops) m st sc).1 (gates env strict (op :: ops) m st sc).2.1
        (acc ++ (gates env strict (op :: ops) m st sc).2.2.toList) (by omega)
      simpa using this

/-- **C207.** Eight parts in a row on which the first gating filter throws the same message make the call give up. -/
theorem eight_in_a_row_abort (env : Env M R K) (flow : List (Op K)) (op : Op K) (ops : List (Op K)) (hflow : gating flow = op :: ops)
    (n : ℕ) (simulate strict : Bool) (a b rest : List M) (msg : String)
    (hb : ∀ m ∈ b, ∃ m', env.evaluate op.kind m = (m', .threw msg)) (h8 : 8 ≤ b.length) :
    ∃ msg', advise env flow n simulate strict (a ++ b ++ rest) = .aborted 8 msg' := by
  have hne : ¬ (a ++ b ++ rest).isEmpty = true := by
    rw [List.isEmpty_iff]
    intro h
    simp only [List.append_eq_nil_iff] at h
    rw [h.1.2] at h8
    simp at h8
  simp only [gating] at hflow
  obtain ⟨msg', h⟩ := prefix_aborts (strict := strict) (ops := ops) rest b hb h8 a .zero ([] : Scores R K) [] (by simp [Streak.zero])
  refine ⟨msg', ?_⟩
  cases strict with
  | true => simp only [advise, if_true]; rw [if_neg hne, hflow, h]
  | false => simp only [advise, Bool.false_eq_true, if_false, relaxed]; rw [if_neg hne, hflow, h]

theorem gateLoop_behind (env : Env M R K) (op1 op2 : Op K) (ops : List (Op K)) (msg : String) (parts : List M) :
    ∀ (st : Streak) (sc : Scores R K) (acc : List M),
    (∀ m ∈ parts, ∃ m' s, env.evaluate op1.kind m = (m', .answer true s) ∧ ∃ m'', env.evaluate op2.kind m' = (m'', .threw msg)) →
    ∃ sc', gateLoop env true (op1 :: op2 :: ops) parts st sc acc = .passed acc sc' := by
  induction parts with
  | nil => intro st sc acc _; exact ⟨sc, rfl⟩
  | cons m ms ih =>
    intro st sc acc hall
    obtain ⟨m', s, h1, m'', h2⟩ := hall m List.mem_cons_self
    have hg : gates env true (op1 :: op2 :: ops) m st sc = (Streak.zero.bump msg, record sc op1.kind (env.reference m') s, none) := by
      simp only [gates, h1, h2]
      simp
    have hl := bump_length Streak.zero msg
    have h0 : Streak.zero.length = 0 := rfl
    simp only [gateLoop, hg, bailThreshold]
    rw [if_neg (by omega)]
    simp only [Option.toList_none, List.append_nil]
    exact ih _ _ _ (fun x hx => hall x (List.mem_cons_of_mem _ hx))

/-- **C207.** Behind a gating filter that accepts, an error every part of the catalogue fails with never makes the call give up, however
many parts there are: nothing is advised, and no error is reported. -/
theorem never_aborts_behind (env : Env M R K) (flow : List (Op K)) (op1 op2 : Op K) (ops : List (Op K))
    (hflow : gating flow = op1 :: op2 :: ops) (n : ℕ) (simulate : Bool) (parts : List M) (msg : String)
    (hall : ∀ m ∈ parts, ∃ m' s, env.evaluate op1.kind m = (m', .answer true s) ∧
      ∃ m'', env.evaluate op2.kind m' = (m'', .threw msg)) :
    advise env flow n simulate true parts = .advised [] := by
  simp only [advise, if_true]
  by_cases he : parts.isEmpty = true
  · rw [if_pos he]
  · rw [if_neg he]
    obtain ⟨sc', h⟩ := gateLoop_behind env op1 op2 ops msg parts .zero ([] : Scores R K) [] hall
    simp only [gating] at hflow
    rw [hflow, h]
    simp [rankLoop]

/-! ## C208: the score -/

/-- The flow with every weight 1: the normalised scores alone. -/
def unweighted (flow : List (Op K)) : List (Op K) := flow.map (fun op => { op with weight := 1 })

theorem score_scales (lg : K → K) (w : K) (invert log : Bool) (mn mx v : K) :
    score lg w invert log mn mx v = (score lg 1 invert log mn mx v).map (w * ·) := by
  unfold score
  split
  · split
    · split
      · split <;> simp [mul_div_assoc]
      · rfl
    · split <;> simp [mul_div_assoc]
  · simp

theorem find?_map {A B : Type} (g : A → B) (m : SMap R A) (name : R) :
    SMap.find? (m.map (fun e => (e.1, g e.2))) name = (SMap.find? m name).map g := by
  induction m with
  | nil => rfl
  | cons a m ih =>
    simp only [List.map_cons, SMap.find?]
    split
    · rfl
    · exact ih

theorem normalizeMap_scales (lg : K → K) (w : K) (invert log : Bool) (m : SMap R (Num K)) :
    normalizeMap lg w invert log m =
      (normalizeMap lg 1 invert log m).map (fun r => r.map (fun e => (e.1, e.2.map (w * ·)))) := by
  cases m with
  | nil => rfl
  | cons x l =>
    simp only [normalizeMap]
    split
    · rfl
    · simp only [Option.map_some, Option.some.injEq, List.map_map]
      apply List.map_congr_left
      intro e _
      simp only [Function.comp]
      congr 1
      split
      · exact score_scales lg w invert log _ _ _
      · rfl

theorem opOf_unweighted (flow : List (Op K)) (kind : ℕ) :
    (opOf (unweighted flow) kind).invert = (opOf flow kind).invert ∧ (opOf (unweighted flow) kind).log = (opOf flow kind).log ∧
      (opOf (unweighted flow) kind).weight = 1 := by
  unfold opOf unweighted
  induction flow with
  | nil => simp
  | cons op flow ih =>
    by_cases h : op.kind = kind
    · simp [List.find?_cons, h]
    · have hb : (op.kind == kind) = false := by simpa using h
      simp only [List.map_cons, List.find?_cons, hb]
      exact ih

theorem normalised_scales (lg : K → K) (flow : List (Op K)) (failed : List (ℕ × R)) (kind : ℕ) (aux : SMap R (Num K)) (name : R) :
    normalised lg flow failed kind aux name =
      (normalised lg (unweighted flow) failed kind aux name).map ((opOf flow kind).weight * ·) := by
  obtain ⟨h1, h2, h3⟩ := opOf_unweighted flow kind
  unfold normalised
  split
  · simp
  · rw [normalizeMap_scales, h1, h2, h3]
    cases hn : normalizeMap lg 1 (opOf flow kind).invert (opOf flow kind).log
        (aux.filter (fun e => !decide ((kind, e.1) ∈ failed))) with
    | none => rfl
    | some m =>
      simp only [Option.map_some]
      rw [find?_map]
      cases SMap.find? m name <;> simp

theorem find?_of_nodup {flow : List (Op K)} (hn : (flow.map Op.kind).Nodup) {op : Op K} (hm : op ∈ flow) :
    flow.find? (fun o => o.kind == op.kind) = some op := by
  induction flow with
  | nil => simp at hm
  | cons a flow ih =>
    simp only [List.map_cons, List.nodup_cons] at hn
    rcases List.mem_cons.mp hm with rfl | hm
    · simp [List.find?_cons]
    · have : ¬ a.kind = op.kind := by
        intro h
        exact hn.1 (by rw [h]; exact List.mem_map_of_mem hm)
      have hb : (a.kind == op.kind) = false := by simpa using this
      simp only [List.find?_cons, hb]
      exact ih hn.2 hm

theorem weightOf_eq {flow : List (Op K)} (hn : (flow.map Op.kind).Nodup) (kind : ℕ) :
    weightOf flow kind = (opOf flow kind).weight := by
  by_cases h : ∃ op ∈ flow, op.kind = kind
  · obtain ⟨op, hm, rfl⟩ := h
    have h1 := find?_of_nodup hn hm
    have h2 := find?_of_nodup (flow := flow.reverse) (by rw [List.map_reverse]; exact List.nodup_reverse.mpr hn)
      (List.mem_reverse.mpr hm)
    unfold weightOf opOf
    rw [h1, h2]
    rfl
  · have h1 : flow.find? (fun o => o.kind == kind) = none := by
      rw [List.find?_eq_none]
      intro x hx
      simp only [beq_iff_eq]
      intro hk
      exact h ⟨x, hx, hk⟩
    have h2 : flow.reverse.find? (fun o => o.kind == kind) = none := by
      rw [List.find?_eq_none]
      intro x hx
      simp only [beq_iff_eq]
      intro hk
      exact h ⟨x, List.mem_reverse.mp hx, hk⟩
    unfold weightOf opOf
    rw [h1, h2]
    rfl

/-- The filters that scored a reference. -/
def scoredBy (sc : Scores R K) (name : R) : Scores R K := sc.filter (fun e => (e.2.find? name).isSome)

/-- The weight the flow gives to a filter. -/
def weightIn (flow : List (Op K)) (kind : ℕ) : K := ((flow.find? (fun op => op.kind == kind)).map Op.weight).getD 1

theorem weightIn_eq (flow : List (Op K)) (kind : ℕ) : weightIn flow kind = (opOf flow kind).weight := by
  unfold weightIn opOf
  cases flow.find? (fun op => op.kind == kind) <;> rfl

theorem sums_squares (lg : K → K) {flow : List (Op K)} (hn : (flow.map Op.kind).Nodup) (failed : List (ℕ × R)) (name : R)
    (sc : Scores R K) : ∀ s w, sums lg flow failed name sc = some (s, w) →
    s = ((scoredBy sc name).map (fun e => weightIn flow e.1 ^ 2 * (normalised lg (unweighted flow) failed e.1 e.2 name).getD 0)).sum ∧
    w = ((scoredBy sc name).map (fun e => weightIn flow e.1)).sum := by
  induction sc with
  | nil =>
    intro s w h
    simp only [sums, Option.some.injEq, Prod.mk.injEq] at h
    simp [scoredBy, ← h.1, ← h.2]
  | cons e sc ih =>
    obtain ⟨kind, aux⟩ := e
    intro s w h
    simp only [sums] at h
    cases hr : sums lg flow failed name sc with
    | none => simp [hr] at h
    | some r =>
      obtain ⟨s', w'⟩ := r
      obtain ⟨e1, e2⟩ := ih s' w' hr
      simp only [hr] at h
      cases ha : aux.find? name with
      | none =>
        simp only [ha, Option.some.injEq, Prod.mk.injEq] at h
        obtain ⟨rfl, rfl⟩ := h
        have : scoredBy ((kind, aux) :: sc) name = scoredBy sc name := by simp [scoredBy, List.filter_cons, ha]
        rw [this]
        exact ⟨e1, e2⟩
      | some v =>
        have hsb : scoredBy ((kind, aux) :: sc) name = (kind, aux) :: scoredBy sc name := by simp [scoredBy, List.filter_cons, ha]
        simp only [ha] at h
        cases hx : normalised lg flow failed kind aux name with
        | none => simp [hx] at h
        | some x =>
          simp only [hx, Option.some.injEq, Prod.mk.injEq] at h
          obtain ⟨rfl, rfl⟩ := h
          rw [hsb]
          simp only [List.map_cons, List.sum_cons]
          rw [normalised_scales] at hx
          obtain ⟨u, hu, rfl⟩ := Option.map_eq_some_iff.mp hx
          rw [hu, ← e1, ← e2, weightOf_eq hn, weightIn_eq]
          simp only [Option.getD_some]
          exact ⟨by ring, trivial⟩

/-- **C208.** A weight enters the score twice: the score of a reference is the sum of its normalised scores times the *squares* of the
weights, over the sum of the weights. The documented score is the sum of the normalised scores times the weights. -/
theorem weights_enter_twice (lg : K → K) {flow : List (Op K)} (hn : (flow.map Op.kind).Nodup) (failed : List (ℕ × R)) (name : R)
    (sc : Scores R K) (t : K) (h : total lg flow failed sc name = some t)
    (hw : 0 < ((scoredBy sc name).map (fun e => weightIn flow e.1)).sum) :
    t = ((scoredBy sc name).map (fun e => weightIn flow e.1 ^ 2 * (normalised lg (unweighted flow) failed e.1 e.2 name).getD 0)).sum /
      ((scoredBy sc name).map (fun e => weightIn flow e.1)).sum := by
  unfold total at h
  cases hs : sums lg flow failed name sc with
  | none => simp [hs] at h
  | some r =>
    obtain ⟨s, w⟩ := r
    obtain ⟨e1, e2⟩ := sums_squares lg hn failed name sc s w hs
    simp only [hs, Option.some.injEq] at h
    rw [e2, if_pos hw] at h
    rw [← h, e1]

/-! ## C209: rejections and scores -/

section Ranked

variable [IsStrictOrderedRing K]

theorem find?_filter {A : Type} (p : R → Bool) (m : SMap R A) (name : R) (h : p name = true) :
    SMap.find? (m.filter (fun e => p e.1)) name = SMap.find? m name := by
  induction m with
  | nil => rfl
  | cons a m ih =>
    by_cases ha : name = a.1
    · have hp : p a.1 = true := by rw [← ha]; exact h
      simp only [List.filter_cons, hp, if_true, SMap.find?]
      rw [if_pos ha, if_pos ha]
    · simp only [SMap.find?]
      rw [if_neg ha, List.filter_cons]
      split
      · simp only [SMap.find?]; rw [if_neg ha]; exact ih
      · exact ih

theorem find?_mem {A : Type} {m : SMap R A} {name : R} {v : A} (h : SMap.find? m name = some v) : (name, v) ∈ m := by
  induction m with
  | nil => simp [SMap.find?] at h
  | cons a m ih =>
    simp only [SMap.find?] at h
    split at h
    · rename_i ha
      simp only [Option.some.injEq] at h
      rw [ha, ← h]; exact List.mem_cons_self
    · exact List.mem_cons_of_mem _ (ih h)

/-- **C209.** For a filter without logarithm: what it rejected scores zero, and what it accepted is scored among the accepted alone, between
zero and the weight, in the order of the raw scores. -/
theorem rejected_score_zero (lg : K → K) (flow : List (Op K)) (failed : List (ℕ × R)) (kind : ℕ) (hlog : (opOf flow kind).log = false)
    (hw : 0 ≤ (opOf flow kind).weight) (raw : SMap R K) :
    ∃ f : K → K, GoodScore (opOf flow kind).weight (opOf flow kind).invert
        ((raw.filter (fun e => !decide ((kind, e.1) ∈ failed))).map Prod.snd) f ∧
      ∀ name v, SMap.find? raw name = some v →
        normalised lg flow failed kind (raw.map (fun e => (e.1, .fin e.2))) name =
          some (if (kind, name) ∈ failed then 0 else f v) := by
  obtain ⟨f, hf, good⟩ := normalize_linear lg (opOf flow kind).weight hw (opOf flow kind).invert
    ((raw.filter (fun e => !decide ((kind, e.1) ∈ failed))).map Prod.snd)
  refine ⟨f, good, ?_⟩
  intro name v hv
  unfold normalised
  by_cases hm : (kind, name) ∈ failed
  · rw [if_pos hm, if_pos hm]
  · rw [if_neg hm, if_neg hm, hlog]
    have hmap : (raw.map (fun e => (e.1, Num.fin e.2))).filter (fun e => !decide ((kind, e.1) ∈ failed)) =
        (raw.filter (fun e => !decide ((kind, e.1) ∈ failed))).map (fun e => (e.1, Num.fin e.2)) := by
      rw [List.filter_map]; rfl
    rw [hmap, normalize_map]
    have hsnd : ((raw.filter (fun e => !decide ((kind, e.1) ∈ failed))).map (fun e => (e.1, Num.fin e.2))).map Prod.snd =
        ((raw.filter (fun e => !decide ((kind, e.1) ∈ failed))).map Prod.snd).map Num.fin := by
      simp [List.map_map, Function.comp_def]
    rw [hsnd, hf]
    simp only [Option.map_some, List.map_map]
    have hz : ((raw.filter (fun e => !decide ((kind, e.1) ∈ failed))).map (Prod.fst ∘ fun e => (e.1, Num.fin e.2))).zip
        ((raw.filter (fun e => !decide ((kind, e.1) ∈ failed))).map ((fun v => some (f v)) ∘ Prod.snd)) =
        (raw.filter (fun e => !decide ((kind, e.1) ∈ failed))).map (fun e => (e.1, some (f e.2))) := by
      rw [List.zip_map']; rfl
    rw [hz, find?_map (fun x => some (f x))]
    have := find?_filter (fun k => !decide ((kind, k) ∈ failed)) raw name (by simpa using hm)
    rw [this, hv]
    rfl

end Ranked

/-! ## C210: the default flow -/

/-- **C210.** Of the filters of the default flow only the one of the turns ratios gates: the documentation lists the dimensions, the
saturation, the current densities, the impedance and the inductance as strictly required too. -/
theorem default_gates (env : Env M R K) (m m' : M) :
    Passes env true (gating (defaultFlow (K := K))) m m' ↔ ∃ s, env.evaluate 15 m = (m', .answer true s) := by
  have hg : gating (defaultFlow (K := K)) = [⟨15, true, false, true, 1⟩] := by simp [gating, defaultFlow, List.filter_cons]
  rw [hg]
  constructor
  · intro h
    cases h with
    | @cons _ _ _ m1 _ valid score answer ok rest =>
      cases rest
      have := ok rfl
      subst this
      exact ⟨score, answer⟩
  · rintro ⟨s, h⟩
    exact .cons h (fun _ => rfl) (.nil _)

/-- **C210.** With the default flow a strict call keeps a part whatever its other filters answer, rejections included, as long as none of
them throws. -/
theorem default_keeps (env : Env M R K) (hl : Looks env) (m : M) :
    (∃ m1 m2, Passes env true (gating (defaultFlow (K := K))) m m1 ∧ Passes env false (ranking (defaultFlow (K := K))) m1 m2) ↔
      (∃ s, (env.evaluate 15 m).2 = .answer true s) ∧
        ∀ kind ∈ [37, 16, 17, 18, 19, 20, 21], ∃ valid s, (env.evaluate kind m).2 = .answer valid s := by
  have hr : ranking (defaultFlow (K := K)) = [⟨37, true, false, false, 1⟩, ⟨16, true, false, false, 1⟩, ⟨17, true, false, false, 1⟩,
      ⟨18, true, false, false, 1⟩, ⟨19, true, false, false, 1⟩, ⟨20, true, false, false, 1⟩, ⟨21, true, false, false, 1⟩] := by
    simp [ranking, defaultFlow, List.filter_cons]
  have key : ∀ ops : List (Op K), (∃ m2, Passes env false ops m m2) ↔
      ∀ op ∈ ops, ∃ valid s, (env.evaluate op.kind m).2 = .answer valid s := by
    intro ops
    induction ops with
    | nil => exact ⟨fun _ op h => by simp at h, fun _ => ⟨m, .nil _⟩⟩
    | cons op ops ih =>
      constructor
      · rintro ⟨m2, h⟩
        cases h with
        | @cons _ _ _ m1 _ valid score answer ok rest =>
          have e := hl op.kind m
          rw [answer] at e
          simp only at e
          subst e
          intro op' hop
          rcases List.mem_cons.mp hop with rfl | hop
          · exact ⟨valid, score, by rw [answer]⟩
          · exact ih.mp ⟨m2, rest⟩ op' hop
      · intro h
        obtain ⟨valid, s, hv⟩ := h op List.mem_cons_self
        obtain ⟨m2, h2⟩ := ih.mpr (fun op' hop => h op' (List.mem_cons_of_mem _ hop))
        exact ⟨m2, .cons (Prod.ext (hl op.kind m) hv) (by simp) h2⟩
  constructor
  · rintro ⟨m1, m2, h1, h2⟩
    have e := passes_looks hl h1
    subst e
    obtain ⟨s, hs⟩ := (default_gates env m1 m1).mp h1
    refine ⟨⟨s, by rw [hs]⟩, ?_⟩
    have := (key _).mp ⟨m2, h2⟩
    rw [hr] at this
    simpa using this
  · rintro ⟨⟨s, hs⟩, h⟩
    obtain ⟨m2, h2⟩ := (key (ranking (defaultFlow (K := K)))).mpr (by rw [hr]; simpa using h)
    exact ⟨m, m2, (default_gates env m m).mpr ⟨s, Prod.ext (hl 15 m) hs⟩, h2⟩

/-! ## Witnesses -/

/-- Parts that are numbers, with a table of what each filter says about each of them. -/
def tableEnv (name : ℕ → ℕ) (table : ℕ → ℕ → Eval ℚ) : Env ℕ ℕ ℚ where
  evaluate kind m := (m, table kind m)
  reference := name
  simulate m := some m
  sort l := l.insertionSort (fun a b => b.2 ≤ a.2)
  lg x := x

theorem tableEnv_sorts (name : ℕ → ℕ) (table : ℕ → ℕ → Eval ℚ) : SortsDown (tableEnv name table).sort := by
  intro l
  haveI : Std.Total (fun a b : ℕ × ℚ => b.2 ≤ a.2) := ⟨fun a b => le_total b.2 a.2⟩
  haveI : IsTrans (ℕ × ℚ) (fun a b => b.2 ≤ a.2) := ⟨fun _ _ _ h1 h2 => le_trans h2 h1⟩
  exact ⟨List.perm_insertionSort _ _, List.pairwise_insertionSort _ _⟩

theorem tableEnv_looks (name : ℕ → ℕ) (table : ℕ → ℕ → Eval ℚ) : Looks (tableEnv name table) := fun _ _ => rfl

/-- An accepting answer. -/
abbrev yes (x : ℚ) : Eval ℚ := .answer true (.fin x)

/-- A rejection, `{false, 0.0}`. -/
abbrev no : Eval ℚ := .answer false (.fin 0)

/-- Two parts that pass and one of another ratio. -/
def threeParts : Env ℕ ℕ ℚ := tableEnv id (fun kind m =>
  match kind, m with
  | 15, 2 => no
  | 15, m => yes (m + 1)
  | 16, 0 => yes 5
  | 16, _ => no
  | _, m => yes (3 * m))

/-- Case of `strict_advised`, `advised_meets`, `advised_few`, `default_gates` and `default_keeps`: two parts of three are advised, in the
order of their scores, though the second one is too large. -/
example : advise threeParts defaultFlow 5 true true [0, 1, 2] = .advised [(0, 15 / 16), (1, 0)] := by decide +kernel

/-- Case of `relaxed_advised`: all three with the gates relaxed. -/
example : ∃ l, advise threeParts defaultFlow 5 true false [0, 1, 2] = .advised l ∧ l.length = 3 := by
  refine ⟨[(0, 15 / 16), (1, 3 / 8), (2, 1 / 8)], ?_⟩
  decide +kernel

/-- **C210.** A part that is too large, saturates and exceeds both current densities is advised by a strict call with the default flow. -/
theorem default_flow_advises_rejected :
    advise (tableEnv id (fun kind _ => match kind with | 15 => yes 0 | _ => no)) defaultFlow 1 true true [0] = .advised [(0, 1 / 8)] := by
  decide +kernel

/-- Parts whose second requirement cannot be evaluated. -/
def unratable : Env ℕ ℕ ℚ := tableEnv id (fun kind m => match kind with | 15 => if m = 0 then yes 0 else no | _ => .threw "no inductance")

/-- Case of `retry_finds_nothing`: a part passes the gate and throws behind it. -/
example : advise unratable defaultFlow 3 true true [0, 1] = .advised [] := by decide +kernel

/-- Parts on every other of which the only gating filter throws; the others are rejected. -/
def alternating : Env ℕ ℕ ℚ := tableEnv id (fun _ m => if m % 2 = 0 then .threw "no bobbin" else no)

/-- **C207.** The errors counted are not consecutive: fifteen parts of which every other one is plainly rejected make the call give up,
reporting eight consecutive failures. -/
theorem aborted_not_consecutive :
    advise alternating [⟨15, true, false, true, 1⟩] 3 true true (List.range 15) = .aborted 8 "no bobbin" ∧
      ∀ i, i + 1 < 15 → ¬ (∃ msg, (alternating.evaluate 15 i).2 = .threw msg ∧ (alternating.evaluate 15 (i + 1)).2 = .threw msg) := by
  refine ⟨by decide +kernel, ?_⟩
  intro i _
  rintro ⟨msg, h1, h2⟩
  simp only [alternating, tableEnv] at h1 h2
  split at h1
  · rename_i h
    rw [if_neg (by omega)] at h2
    simp at h2
  · simp at h1

/-- Case of `eight_in_a_row_abort` and `aborted_partial`: eight parts on which the filter throws, after two it does not throw on. -/
example : advise (tableEnv id (fun _ m => if m < 2 then yes 1 else .threw "no harmonics")) [⟨15, true, false, true, 1⟩] 3 true true
    (List.range 12) = .aborted 8 "no harmonics" := by decide +kernel

/-- Case of `never_aborts_behind`: forty parts, all of which fail alike behind a filter that accepts. -/
example : advise (tableEnv id (fun kind _ => if kind = 15 then yes 1 else .threw "no harmonics"))
    [⟨15, true, false, true, 1⟩, ⟨17, true, false, true, 1⟩] 3 true true (List.range 40) = .advised [] := by decide +kernel

/-- One part best by a criterion of weight 3, another best by two criteria of weight 2. -/
def twoBest : Env ℕ ℕ ℚ := tableEnv id (fun kind m =>
  match kind, m with
  | 0, 0 => yes 1
  | 0, _ => yes 0
  | _, 0 => yes 0
  | _, _ => yes 1)

/-- **C208.** The order is not the documented one: with weights 3, 2 and 2 the part with normalised scores 1, 0, 0 (documented score 3) comes
before the one with 0, 1, 1 (documented score 4). -/
theorem order_not_documented :
    advise twoBest [⟨0, false, false, false, 3⟩, ⟨1, false, false, false, 2⟩, ⟨2, false, false, false, 2⟩] 2 false true [0, 1] =
      .advised [(0, 9 / 7), (1, 8 / 7)] := by decide +kernel

/-- Case of `weights_enter_twice`. -/
example : total (fun x : ℚ => x) [⟨0, false, false, false, 3⟩, ⟨1, false, false, false, 2⟩] []
    ([(0, [(0, .fin 1), (1, .fin 0)]), (1, [(0, .fin 0), (1, .fin 4)])] : Scores ℕ ℚ) 1 = some (4 / 5) := by decide +kernel

/-- Case of `rejected_score_zero`: the rejected part does not stretch the range of the others. -/
example : (fun name => normalised (fun x : ℚ => x) [⟨16, true, false, false, 1⟩] [(16, (2 : ℕ))] 16
    [(0, .fin 4), (1, .fin 6), (2, .fin 0), (3, .fin 5)] name) <$> [0, 1, 2, 3] = [some 1, some 0, some 0, some (1 / 2)] := by decide +kernel

/-- A part of the wrong ratio and one of a fitting ratio that is a little off its nominal value; nothing else tells them apart. -/
def wrongRatio : Env ℕ ℕ ℚ := tableEnv id (fun kind m =>
  match kind, m with
  | 15, 0 => no
  | 15, _ => yes (1 / 10)
  | _, _ => yes 1)

/-- **C209.** With the gates relaxed a part that fails a gating filter comes before one that meets it: the zero of its rejection is taken
for the best raw score. -/
theorem relaxed_rejected_first :
    advise wrongRatio defaultFlow 2 true false [0, 1] = .advised [(0, 1), (1, 7 / 8)] := by decide +kernel

/-- Two parts that pass, each better by one criterion, and a third one. -/
def disturbed : Env ℕ ℕ ℚ := tableEnv id (fun kind m =>
  match kind, m with
  | 15, 0 => yes 1
  | 15, 1 => yes 2
  | 15, _ => no
  | _, 0 => yes 1
  | _, _ => yes 0)

/-- **C209.** A part that a strict call rejects changes the order of the parts it advises: its zero stretches the range the others are
normalised over. -/
theorem strict_rejected_disturbs :
    advise disturbed [⟨15, true, false, true, 1⟩, ⟨16, true, false, false, 4 / 5⟩] 1 true true [0, 1] = .advised [(0, 5 / 9)] ∧
      advise disturbed [⟨15, true, false, true, 1⟩, ⟨16, true, false, false, 4 / 5⟩] 1 true true [0, 1, 2] = .advised [(1, 16 / 45)] := by
  decide +kernel

/-- Two parts with one reference: the first is the better one. -/
def sharedName : Env ℕ ℕ ℚ := tableEnv (fun m => if m = 2 then 1 else 0) (fun _ m => yes (if m = 0 then 0 else if m = 1 then 10 else 5))

/-- **C205.** Parts with the same reference share the score of the last of them: the best part of three comes last. -/
theorem shared_reference_counterexample :
    advise sharedName [⟨0, true, false, false, 1⟩] 1 true true [0, 1, 2] = .advised [(2, 1)] ∧
      advise (tableEnv id (fun _ m => yes (if m = 0 then 0 else if m = 1 then 10 else 5))) [⟨0, true, false, false, 1⟩] 1 true true [0, 1, 2] = .advised [(0, 1)] := by
  decide +kernel

/-- **C208.** What is recorded for a part under a filter is the last score that is neither not a number nor minus one, and nothing
recorded for other parts or under other filters changes. -/
theorem recorded (sc : Scores R K) (kind kind' : ℕ) (name name' : R) (score : Num K) :
    (((record sc kind name score).find? kind').bind fun m => m.find? name') =
      if kind' = kind ∧ name' = name ∧ score ≠ .nan ∧ score ≠ .fin (-1) then some score
      else (sc.find? kind').bind fun m => m.find? name' := by
  unfold record
  by_cases hs : score = .nan ∨ score = .fin (-1)
  · rw [if_pos hs, if_neg (fun h => by rcases hs with h' | h'; exact h.2.2.1 h'; exact h.2.2.2 h')]
  · obtain ⟨h1, h2⟩ := not_or.mp hs
    rw [if_neg hs, SMap.find?_insert]
    by_cases hk : kind' = kind
    · subst hk
      rw [if_pos rfl, Option.bind_some, SMap.find?_insert]
      by_cases hn : name' = name
      · rw [if_pos hn, if_pos ⟨rfl, hn, h1, h2⟩]
      · rw [if_neg hn, if_neg (fun h => hn h.2.1)]
        cases sc.find? kind' with
        | none => rfl
        | some m => rfl
    · rw [if_neg hk, if_neg (fun h => hk h.1)]

/-- **C205.** The parts of a catalogue of magnetics that are evaluated: those with as many windings as the first operating point has
excitations, in their order, or all of them without operating points. -/
theorem catalogue_matched {G : Type} (windings : G → ℕ) (excitations : Option ℕ) (withInputs : G → M) (catalogue : List G) :
    ∃ kept, kept.Sublist catalogue ∧ ofCatalogue windings excitations withInputs catalogue = kept.map withInputs ∧
      (∀ g ∈ catalogue, g ∈ kept ↔ ∀ n, excitations = some n → windings g = n) ∧ (excitations = none → kept = catalogue) := by
  refine ⟨_, List.filter_sublist, rfl, ?_, ?_⟩
  · intro g hg
    simp only [List.mem_filter, decide_eq_true_eq, hg, true_and]
    constructor
    · rintro (h | h) n hn
      · rw [h] at hn; simp at hn
      · rw [h] at hn; exact Option.some.inj hn
    · intro h
      cases he : excitations with
      | none => exact Or.inl rfl
      | some n => exact Or.inr (by rw [h n he])
  · intro h
    simp [h]

end Verif.Advice
