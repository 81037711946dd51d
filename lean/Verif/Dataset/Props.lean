import Verif.Dataset.Lemmas
import Mathlib.Tactic.Linarith
import Mathlib.Data.Rat.Floor

/-! # Properties of the candidates of the core adviser -/

namespace Verif.Dataset

set_option linter.unusedSimpArgs false
set_option linter.unusedVariables false
set_option linter.unusedSectionVars false

/-! ## Specification -/

/-- A core that fits what was asked for. -/
structure Suitable (job : Job) (p : Part) : Prop where
  material : p.suits = true
  closed : job.application = .suppression → job.choke = true → p.typ = .toroidal
  toroids : ¬ (job.application = .suppression ∧ job.choke = true) → job.toroidal = false → p.typ ≠ .toroidal
  sets : ¬ (job.application = .suppression ∧ job.choke = true) → job.concentric = false →
    p.typ ≠ .twoPieceSet ∧ p.typ ≠ .pieceAndPlate
  boards : job.printed = true → p.typ ≠ .toroidal ∧ p.columns ≠ 2 ∧ p.windowHeight ≤ p.windowWidth
  gapped : p.fits p.count = true
  low : ∀ h : ℚ, job.maximumHeight = some h → p.typ = .twoPieceSet → p.height ≤ h
  discrete : job.distributed = false → p.gaps ≤ p.columns

/-- No mark of a stack in a name. -/
def Unmarked (s : String) : Prop :=
  ∀ (a b : List Char) (d : Char), d.isDigit = true → s.toList ≠ a ++ [' ', d, ' ', 's', 't', 'a', 'c', 'k', 's'] ++ b

/-- A toroid of ferrite, for the examples. -/
def toroid : Part where
  key := 7
  name := some "T 20"
  typ := .toroidal
  family := .t
  suits := true
  columns := 1
  windowHeight := 1
  windowWidth := 1
  height := 1
  fits := fun _ => true
  gaps := 0
  count := 1

/-- A set of two E, for the examples. -/
def pair : Part :=
  { toroid with key := 8, name := some "E 42", typ := .twoPieceSet, family := .e, columns := 3, windowHeight := 2 }

/-- A request for power. -/
def plain : Job := ⟨.power, false, false, none, true, true, true, true⟩

theorem admitted_iff (job : Job) (p : Part) : admitted job p = true ↔ Suitable job p := by
  constructor
  · intro h
    simp only [admitted, geometryOk, Bool.and_eq_true] at h
    obtain ⟨hs, ⟨⟨⟨ht, hp⟩, hf⟩, hh⟩, hg⟩ := h
    refine ⟨hs, ?_, ?_, ?_, ?_, hf, ?_, ?_⟩
    · intro h1 h2
      simpa [typeOk, h1, h2] using ht
    · intro h1 h2 h3
      unfold typeOk at ht
      rw [if_neg (by simpa using h1)] at ht
      simp [leftOut, h2, h3] at ht
    · intro h1 h2
      unfold typeOk at ht
      rw [if_neg (by simpa using h1)] at ht
      simp only [leftOut, h2] at ht
      constructor <;> intro h3 <;> simp [h3] at ht
    · intro h1
      simpa [printedOk, h1, and_assoc] using hp
    · intro b h1 h2
      simpa [heightOk, h1, h2] using hh
    · intro h1
      simpa [gapsOk, h1] using hg
  · rintro ⟨hs, hc, ht, hset, hb, hf, hl, hd⟩
    simp only [admitted, geometryOk, Bool.and_eq_true]
    refine ⟨hs, ⟨⟨⟨?_, ?_⟩, hf⟩, ?_⟩, ?_⟩
    · unfold typeOk
      by_cases h : job.application = .suppression ∧ job.choke = true
      · rw [if_pos (by simpa using h)]
        simpa using hc h.1 h.2
      · rw [if_neg (by simpa using h)]
        have h1 := ht h
        have h2 := hset h
        unfold leftOut
        cases h3 : job.toroidal <;> cases h4 : job.concentric <;> simp_all
    · unfold printedOk
      cases h : job.printed
      · rfl
      · have := hb h
        simpa [and_assoc] using this
    · unfold heightOk
      cases h : job.maximumHeight with
      | none => rfl
      | some b =>
        have := hl b h
        by_cases h2 : p.typ = .twoPieceSet
        · simpa [h2] using this h2
        · simp [h2]
    · unfold gapsOk
      cases h : job.distributed
      · simpa using hd h
      · rfl

/-! ## C318: the cores the adviser starts from -/

/-- **C318.** Without stacks the candidates are, in the order of the cores handed over, exactly the cores that fit what was
asked for, each once, under its own name, and the cores handed over are left as they were. -/
theorem candidates_exact (job : Job) (cores : List Part) :
    (create job false cores).2 = cores ∧
    ((create job false cores).1.map (·.core)).Sublist cores ∧
    (∀ p : Part, p ∈ (create job false cores).1.map (·.core) ↔ p ∈ cores ∧ Suitable job p) ∧
    (∀ e ∈ (create job false cores).1, e.reference = some (e.core.name.getD "unnamed")) := by
  have hmem : ∀ e : Entry, e ∈ (create job false cores).1 ↔
      ∃ p ∈ cores, Suitable job p ∧ e = ⟨some (named p), p⟩ := by
    intro e
    simp only [create, createOne_plain, List.mem_flatMap]
    constructor
    · rintro ⟨p, hp, h⟩
      by_cases ha : admitted job p = true
      · rw [if_pos ha] at h
        exact ⟨p, hp, (admitted_iff job p).mp ha, List.mem_singleton.mp h⟩
      · rw [if_neg ha] at h
        cases h
    · rintro ⟨p, hp, hs, rfl⟩
      exact ⟨p, hp, by rw [if_pos ((admitted_iff job p).mpr hs)]; exact List.mem_singleton.mpr rfl⟩
  refine ⟨create_plain_cores job cores, ?_, ?_, ?_⟩
  · simp only [create, createOne_plain]
    induction cores with
    | nil => exact List.Sublist.refl _
    | cons p ps ih =>
      have ih' := ih (fun e => by
        simp only [create, createOne_plain, List.mem_flatMap]
        constructor
        · rintro ⟨p, hp, h⟩
          by_cases ha : admitted job p = true
          · rw [if_pos ha] at h
            exact ⟨p, hp, (admitted_iff job p).mp ha, List.mem_singleton.mp h⟩
          · rw [if_neg ha] at h
            cases h
        · rintro ⟨p, hp, hs, rfl⟩
          exact ⟨p, hp, by rw [if_pos ((admitted_iff job p).mpr hs)]; exact List.mem_singleton.mpr rfl⟩)
      rw [List.flatMap_cons]
      by_cases ha : admitted job p = true
      · rw [if_pos ha]
        exact ih'.cons_cons p
      · rw [if_neg ha]
        exact ih'.cons p
  · intro p
    rw [List.mem_map]
    constructor
    · rintro ⟨e, he, rfl⟩
      obtain ⟨q, hq, hs, rfl⟩ := (hmem e).mp he
      exact ⟨hq, hs⟩
    · rintro ⟨hp, hs⟩
      exact ⟨⟨some (named p), p⟩, (hmem _).mpr ⟨p, hp, hs, rfl⟩, rfl⟩
  · intro e he
    obtain ⟨q, hq, hs, rfl⟩ := (hmem e).mp he
    rfl

example : ((create plain false [toroid, { pair with suits := false }, pair]).1.map (·.reference)) = [some "T 20", some "E 42"] := by
  decide +kernel

/-- **C318.** The candidates made of shapes have one to four stacks, their name tells how many, and no two of one shape share a
name, nor the reference of their manufacturer. -/
theorem shape_stacks (job : Job) (p : Part) (hs : stackable p.family = true) (hk : skipped p.family = false)
    (hg : geometryOk job p = true) (hj : job.stacked = true) :
    (shapeOne job true p).map (·.core.count) = [1, 2, 3, 4] ∧
    (shapeOne job true p).map (·.reference) = [some (named p), some (named p ++ " 2 stacks"), some (named p ++ " 3 stacks"),
      some (named p ++ " 4 stacks")] ∧
    ((shapeOne job true p).map (·.reference)).Nodup ∧
    (∀ e ∈ shapeOne job true p, e.core.name = e.reference) := by
  have hr : List.range maximumStacks = [0, 1, 2, 3] := by decide
  have e : shapeOne job true p = [stackShape p 0, stackShape p 1, stackShape p 2, stackShape p 3] := by
    unfold shapeOne
    rw [if_pos (by simp [hk, hg]), if_pos (by simp [hs, hj]), hr]
    rfl
  have r : (shapeOne job true p).map (·.reference) = [some (named p), some (named p ++ " 2 stacks"),
      some (named p ++ " 3 stacks"), some (named p ++ " 4 stacks")] := by
    rw [e]
    simp only [List.map_cons, List.map_nil, stackShape]
    have h2 : suffix (1 + 1) = " 2 stacks" := by decide
    have h3 : suffix (1 + 2) = " 3 stacks" := by decide
    have h4 : suffix (1 + 3) = " 4 stacks" := by decide
    rw [h2, h3, h4]
    rfl
  refine ⟨by rw [e]; rfl, r, ?_, ?_⟩
  · rw [r]
    have hl : ∀ (a b : String), named p ++ a = named p ++ b → a.toList = b.toList := by
      intro a b h
      have := congrArg String.toList h
      rw [String.toList_append, String.toList_append] at this
      exact List.append_cancel_left this
    have h0 : ∀ a : String, named p = named p ++ a → a.toList = [] := by
      intro a h
      have := congrArg String.toList h
      rw [String.toList_append] at this
      simpa using this
    simp only [List.nodup_cons, List.mem_cons, List.not_mem_nil, or_false, Option.some.injEq, not_or, not_false_eq_true,
      List.nodup_nil, and_true]
    refine ⟨⟨?_, ?_, ?_⟩, ⟨?_, ?_⟩, ?_⟩
    · intro h; exact absurd (h0 _ h) (by decide)
    · intro h; exact absurd (h0 _ h) (by decide)
    · intro h; exact absurd (h0 _ h) (by decide)
    · intro h; exact absurd (hl _ _ h) (by decide)
    · intro h; exact absurd (hl _ _ h) (by decide)
    · intro h; exact absurd (hl _ _ h) (by decide)
  · intro x hx
    rw [e] at hx
    simp only [List.mem_cons, List.not_mem_nil, or_false] at hx
    rcases hx with rfl | rfl | rfl | rfl <;> rfl

example : (shapeOne plain true pair).length = 4 := by decide +kernel

/-! ## C319: what the stacks are not asked -/

/-- **C319.** In the second attempt stacks are offered of every core whose family is stacked, whose gaps and height fit and
whose toroids are allowed, whatever else was asked for: the cores are not those of the first attempt. -/
theorem stacks_offered (job : Job) (p : Part) (hs : stackable p.family = true) (hf : p.fits p.count = true)
    (ht : job.toroidal = true ∨ p.typ ≠ .toroidal)
    (hh : ∀ h : ℚ, job.maximumHeight = some h → p.typ = .twoPieceSet → p.height ≤ h) :
    (expand job [p]).1.map (·.core.count) = [2, 3, 4] ∧ (∀ e ∈ (expand job [p]).1, e.core.key = p.key) := by
  have he : expandable job p = true := by
    unfold expandable
    simp only [Bool.and_eq_true]
    refine ⟨⟨⟨?_, ?_⟩, hs⟩, hf⟩
    · rcases ht with h | h <;> simp [h]
    · unfold heightOk
      cases h : job.maximumHeight with
      | none => rfl
      | some b =>
        by_cases h2 : p.typ = .twoPieceSet
        · simpa [h2] using hh b h h2
        · simp [h2]
  have h1 : (expand job [p]).1 = (restack p stackNumbers).1 := by simp [expand, expandOne, he]
  have h2 : stackNumbers = [2, 3, 4] := by decide
  rw [h1]
  refine ⟨by rw [h2]; rfl, fun e h => (restack_entries _ _ e h).1⟩

/-- **C319.** So a core of a material that does not suit the application, one of a type the user left out, one no printed
circuit fits and one with distributed gaps that were not allowed are all refused alone and offered as stacks. -/
theorem stacks_refused_alone :
    ((create plain false [{ toroid with suits := false }]).1.length = 0 ∧
      (expand plain [{ toroid with suits := false }]).1.length = 3) ∧
    ((create { plain with concentric := false } false [pair]).1.length = 0 ∧
      (expand { plain with concentric := false } [pair]).1.length = 3) ∧
    ((create { plain with printed := true } false [toroid]).1.length = 0 ∧
      (expand { plain with printed := true } [toroid]).1.length = 3) ∧
    ((create { plain with distributed := false } false [{ pair with gaps := 5 }]).1.length = 0 ∧
      (expand { plain with distributed := false } [{ pair with gaps := 5 }]).1.length = 3) := by
  refine ⟨⟨?_, ?_⟩, ⟨?_, ?_⟩, ⟨?_, ?_⟩, ⟨?_, ?_⟩⟩ <;> decide +kernel

/-- **C319.** What does hold of every stack offered: it comes from a core handed over, of a family that is stacked, whose gaps
fit as it came and whose height, of a set of two pieces, is within the largest; and toroids are offered only if allowed. -/
theorem stacks_offered_partial (job : Job) (cores : List Part) (e : Entry) (he : e ∈ (expand job cores).1) :
    ∃ p ∈ cores, e.core.key = p.key ∧ e.core.count ∈ [2, 3, 4] ∧ stackable p.family = true ∧ p.fits p.count = true ∧
      (job.toroidal = false → p.typ ≠ .toroidal) ∧
      (∀ h : ℚ, job.maximumHeight = some h → p.typ = .twoPieceSet → p.height ≤ h) := by
  simp only [expand, List.mem_flatMap] at he
  obtain ⟨p, hp, h⟩ := he
  unfold expandOne at h
  by_cases hx : expandable job p = true
  · rw [if_pos hx] at h
    have h2 : stackNumbers = [2, 3, 4] := by decide
    obtain ⟨k1, k2⟩ := restack_entries _ _ e h
    simp only [expandable, Bool.and_eq_true] at hx
    obtain ⟨⟨⟨a, b⟩, c⟩, d⟩ := hx
    refine ⟨p, hp, k1, by rw [← h2]; exact k2, c, d, ?_, ?_⟩
    · intro h1 h3
      simp [h1, h3] at a
    · intro w h1 h3
      simpa [heightOk, h1, h3] using b
  · rw [if_neg hx] at h
    cases h

/-! ## C320: the catalogue after an advice -/

variable {R : Type}

/-- **C320.** The catalogue is left as it was by every advice that finds enough at the first attempt, that is not for power, or
with stacks turned off. -/
theorem catalogue_kept_partial (q : Request R) (cores : List Part)
    (h : q.job.application ≠ .power ∨ q.job.stacked = false ∨
      q.wanted ≤ (q.search false (create q.job false cores).1).length) : (advise q cores).2 = cores := by
  unfold advise
  by_cases hs : starved q cores = true
  · simp only [hs, if_true]
    rcases h with h | h | h
    · simp [starved, h] at hs
    · simp [h, create_plain_cores]
    · simp only [starved, Bool.and_eq_true, decide_eq_true_eq] at hs
      omega
  · simp [hs, create_plain_cores]

example (q : Request ℕ) (h : q.job.stacked = false) : (advise q [toroid]).2 = [toroid] :=
  catalogue_kept_partial q _ (Or.inr (Or.inl h))

/-- **C320.** Any other advice leaves every core it can stack in the catalogue as a stack of four, named so. -/
theorem starved_restacks (q : Request R) (cores : List Part) (hp : q.job.application = .power) (hs : q.job.stacked = true)
    (hw : (q.search false (create q.job false cores).1).length < q.wanted) (i : Nat) (p : Part) (hi : cores[i]? = some p)
    (he : expandable q.job p = true) :
    ∃ r : Part, (advise q cores).2[i]? = some r ∧ r.key = p.key ∧ r.count = 4 ∧
      (Unmarked (named p) → r.name = some (named p ++ " 4 stacks")) := by
  have hst : starved q cores = true := by simp [starved, hp, hw]
  have h1 : (advise q cores).2 = (expand q.job cores).2 := by
    simp [advise, hst, hs, create_plain_cores]
  rw [h1]
  refine ⟨(expandOne q.job p).2, by simp [expand, hi], expandOne_key _ _, ?_, ?_⟩
  · unfold expandOne
    rw [if_pos he]
    exact restack_last p
  · intro hu
    have hc : stripped (named p) = named p := by
      unfold stripped
      rw [strip_clean _ hu, String.ofList_toList]
    unfold expandOne
    rw [if_pos he]
    have h4 : suffix 4 = " 4 stacks" := by decide
    rw [← h4]
    exact (restack_named p (named p) hc hc).2

/-- No record of this key has a number of stacks other than four. -/
def OnlyStacked (key : Nat) (cores : List Part) : Prop := ∀ p ∈ cores, p.key = key → p.count = 4

theorem advise_only_stacked (key : Nat) (q : Request R) (cores : List Part) (h : OnlyStacked key cores) :
    OnlyStacked key (advise q cores).2 := by
  have hx : OnlyStacked key (expand q.job cores).2 := by
    intro p hp hk
    simp only [expand, List.mem_map] at hp
    obtain ⟨c, hc, rfl⟩ := hp
    unfold expandOne at hk ⊢
    by_cases he : expandable q.job c = true
    · rw [if_pos he]
      exact restack_last c
    · rw [if_neg he] at hk ⊢
      exact h c hc hk
  unfold advise
  by_cases hs : starved q cores = true
  · simp only [hs, if_true, create_plain_cores]
    cases q.job.stacked
    · exact h
    · exact hx
  · simp [hs, create_plain_cores]
    exact h

/-- **C320.** From then on no advice of any history tries that core alone: wherever its record is a candidate, it is in a stack
of at least two. -/
theorem never_alone_again (key : Nat) (cores : List Part) (h : OnlyStacked key cores) :
    ∀ (history : List (Request R)) (q : Request R) (e : Entry), e ∈ offered q (after history cores) → e.core.key = key →
      2 ≤ e.core.count := by
  intro history
  induction history generalizing cores with
  | cons q qs ih => exact ih (advise q cores).2 (advise_only_stacked key q cores h)
  | nil =>
    intro q e he hk
    simp only [after] at he
    have hc : ∀ e ∈ (create q.job false cores).1, e.core.key = key → 2 ≤ e.core.count := by
      intro e he hk
      have := (candidates_exact q.job cores).2.2.1 e.core
      have hm := (this.mp (List.mem_map.mpr ⟨e, he, rfl⟩)).1
      have := h e.core hm hk
      omega
    unfold offered at he
    by_cases hs : (starved q cores && q.job.stacked) = true
    · rw [if_pos hs, List.mem_append] at he
      rcases he with he | he
      · exact hc e he hk
      · obtain ⟨p, _, _, h2, _⟩ := stacks_offered_partial _ _ e he
        simp only [List.mem_cons, List.not_mem_nil, or_false] at h2
        omega
    · rw [if_neg hs] at he
      exact hc e he hk

/-- **C320.** One advice short of results is enough for that: after it, a core it could stack is never tried alone again. -/
theorem lost_after_starved (q : Request R) (cores : List Part) (hp : q.job.application = .power) (hs : q.job.stacked = true)
    (hw : (q.search false (create q.job false cores).1).length < q.wanted) (key : Nat)
    (hk : ∀ p ∈ cores, p.key = key → expandable q.job p = true) (history : List (Request R)) (q' : Request R) (e : Entry)
    (he : e ∈ offered q' (after (q :: history) cores)) (hkey : e.core.key = key) : 2 ≤ e.core.count := by
  refine never_alone_again key (advise q cores).2 ?_ history q' e he hkey
  intro r hr hrk
  obtain ⟨i, hi⟩ := List.mem_iff_getElem?.mp hr
  have hst : starved q cores = true := by simp [starved, hp, hw]
  have h1 : (advise q cores).2 = (expand q.job cores).2 := by
    simp [advise, hst, hs, create_plain_cores]
  rw [h1] at hi
  simp only [expand, List.getElem?_map, Option.map_eq_some_iff] at hi
  obtain ⟨p, hpi, rfl⟩ := hi
  have hpk : p.key = key := by rw [← expandOne_key q.job p]; exact hrk
  have hm := List.mem_of_getElem? hpi
  unfold expandOne
  rw [if_pos (hk p hm hpk)]
  exact restack_last p

example : ∀ p ∈ [toroid, pair], p.key = 7 → expandable plain p = true := by decide +kernel

/-- A search that keeps every candidate. -/
def everything (_ : Bool) (es : List Entry) : List (Option String) := es.map (·.reference)

/-- **C320.** So the same advice asked twice does not answer the same: the toroid asked alone in the first is gone in the
second, which offers the stack of four twice under one reference. -/
theorem repeated_advice_differs :
    (advise ⟨plain, 9, everything⟩ [toroid]).1 = [some "T 20", some "T 20 2 stacks", some "T 20 3 stacks", some "T 20 4 stacks"] ∧
    (advise ⟨plain, 9, everything⟩ (advise ⟨plain, 9, everything⟩ [toroid]).2).1 =
      [some "T 20 4 stacks", some "T 20 2 stacks", some "T 20 3 stacks", some "T 20 4 stacks"] := by
  constructor <;> decide +kernel

/-! ## C321: the names of stacks -/

/-- **C321.** The stacks of a core are named after it, with the number of stacks, however many times it was stacked before:
earlier numbers do not pile up, and no two of one core share their reference. -/
theorem stack_names (job : Job) (p : Part) (base : String) (hb : Unmarked base)
    (hn : named p = base ∨ ∃ k ∈ [2, 3, 4], named p = base ++ suffix k) (he : expandable job p = true) :
    (expand job [p]).1.map (·.reference) = [some (base ++ " 2 stacks"), some (base ++ " 3 stacks"), some (base ++ " 4 stacks")] ∧
    ((expand job [p]).1.map (·.reference)).Nodup ∧ (expand job [p]).2.map (·.name) = [some (base ++ " 4 stacks")] := by
  have h2 : stackNumbers = [2, 3, 4] := by decide
  have hc : stripped base = base := by
    unfold stripped
    rw [strip_clean _ hb, String.ofList_toList]
  have hs : stripped (named p) = base := by
    rcases hn with h | ⟨k, hk, h⟩
    · rw [h, hc]
    · rw [h, stripped_suffix base k (by rw [h2]; exact hk), hc]
  have e2 : suffix 2 = " 2 stacks" := by decide
  have e3 : suffix 3 = " 3 stacks" := by decide
  have e4 : suffix 4 = " 4 stacks" := by decide
  have hr := restack_named p base hs hc
  rw [e2, e3, e4] at hr
  have h1 : (expand job [p]).1 = (restack p stackNumbers).1 := by simp [expand, expandOne, he]
  have h3 : (expand job [p]).2 = [(restack p stackNumbers).2] := by simp [expand, expandOne, he]
  rw [h1, h3]
  refine ⟨hr.1, ?_, by rw [List.map_cons, hr.2]; rfl⟩
  rw [hr.1]
  have hl : ∀ (a b : String), base ++ a = base ++ b → a.toList = b.toList := by
    intro a b h
    have := congrArg String.toList h
    rw [String.toList_append, String.toList_append] at this
    exact List.append_cancel_left this
  simp only [List.nodup_cons, List.mem_cons, List.not_mem_nil, or_false, Option.some.injEq, not_or, not_false_eq_true,
    List.nodup_nil, and_true]
  refine ⟨⟨?_, ?_⟩, ?_⟩
  · intro h; exact absurd (hl _ _ h) (by decide)
  · intro h; exact absurd (hl _ _ h) (by decide)
  · intro h; exact absurd (hl _ _ h) (by decide)

example : expandable plain { toroid with name := some ("T 20" ++ suffix 4) } = true := by decide +kernel

/-- **C321.** The dataset made of cores with stacks tells the number in the reference alone: the cores of the four stacks all
keep one name. -/
theorem stacked_cores_share_name (job : Job) (p : Part) (ha : admitted job p = true) (hs : stackable p.family = true)
    (hj : job.stacked = true) :
    (create job true [p]).1.map (·.core.name) = [p.name, p.name, p.name, p.name] ∧
    (create job true [p]).1.map (·.core.count) = [1, 2, 3, 4] ∧ (create job true [p]).2.map (·.count) = [4] := by
  have hr : List.range maximumStacks = [0, 1, 2, 3] := by decide
  have h : createOne job true p = ([stackEntry p 0, stackEntry p 1, stackEntry p 2, stackEntry p 3],
      { p with count := maximumStacks }) := by
    unfold createOne
    rw [if_pos ha, if_pos (by simp [hs, hj]), hr]
    rfl
  simp only [create, List.flatMap_cons, List.flatMap_nil, List.append_nil, List.map_cons, List.map_nil, h]
  exact ⟨rfl, rfl, rfl⟩

/-- **C321.** The references of the four stacks: the name, and from two on the number after it. -/
theorem stack_references (job : Job) (p : Part) (ha : admitted job p = true) (hs : stackable p.family = true)
    (hj : job.stacked = true) :
    (create job true [p]).1.map (·.reference) = [some (p.name.getD "unnamed"), some (p.name.getD "unnamed" ++ " 2 stacks"),
      some (p.name.getD "unnamed" ++ " 3 stacks"), some (p.name.getD "unnamed" ++ " 4 stacks")] := by
  have hr : List.range maximumStacks = [0, 1, 2, 3] := by decide
  have h : createOne job true p = ([stackEntry p 0, stackEntry p 1, stackEntry p 2, stackEntry p 3],
      { p with count := maximumStacks }) := by
    unfold createOne
    rw [if_pos ha, if_pos (by simp [hs, hj]), hr]
    rfl
  simp only [create, List.flatMap_cons, List.flatMap_nil, List.append_nil, List.map_cons, List.map_nil, h]
  rfl

/-- **C319.** The families that are stacked. -/
theorem stacked_families (f : Family) : stackable f = true ↔ f ∈ [Family.e, .planarE, .t, .u, .c] := by
  cases f <;> decide

end Verif.Dataset
