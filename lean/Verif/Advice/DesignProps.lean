import Verif.Advice.Design
import Verif.Advice.CatalogueProps

/-!
# Designing magnetics: the pool of candidates, their scores and what is answered: C215–C219
-/

set_option linter.unusedSimpArgs false
set_option linter.unusedSectionVars false

namespace Verif.Advice.Design

open Verif Verif.Scoring Verif.Advice

variable {M N K : Type} [DecidableEq N] [Field K] [LinearOrder K]

/-! ## Specification -/

/-- A candidate went through the whole validation: it has sections and turns, could be simulated, and, if it is an inductor, its saturation
current clears the margin over the peak of every operating point that has one. -/
def Validated (margin : K) (c : Cand M K) : Prop :=
  c.sections.isSome = true ∧ c.turns = true ∧ c.simulates = true ∧
    (c.inductor = true → ∀ p ∈ c.points, ∀ peak, p.1 = some peak → margin * peak ≤ p.2)

/-- A pool made of blocks: each is of a core of its own among the advised ones, and has validated coils of that core, at most five or the half
of the results asked for, but one in any case; there are less than forty. -/
def Blocks (margin : K) (results : ℕ) (advised : List (Core M N K)) (evaluated : List N) (data : List (Cand M K)) : Prop :=
  ∃ blocks : List (N × List (Cand M K)), (blocks.map Prod.fst).Sublist evaluated ∧ data = blocks.flatMap Prod.snd ∧ blocks.length ≤ 39 ∧
    ∀ b ∈ blocks, b.2.length ≤ max 1 (min 5 ((results + 1) / 2)) ∧ (∀ c ∈ b.2, Validated margin c) ∧
      ∃ core ∈ advised, core.name = some b.1 ∧ b.2.Sublist core.coils

/-! ## Lemmas -/

theorem saturates_false {margin : K} {c : Cand M K} (h : saturates margin c = false) (hi : c.inductor = true) :
    ∀ p ∈ c.points, ∀ peak, p.1 = some peak → margin * peak ≤ p.2 := by
  intro p hp peak hpk
  simp only [saturates, hi, Bool.true_and, List.any_eq_false] at h
  have := h p hp
  rw [hpk] at this
  simpa using this

/-- What `process` does: it skips the candidate, or adds it after validating it. -/
theorem process_cases (margin : K) (perCore global : ℕ) (p : Pool M K) (c : Cand M K) :
    ((process margin perCore global p c).1 = .skipped ∧ (process margin perCore global p c).2.data = p.data ∧
      (process margin perCore global p c).2.used = p.used ∧ p.processed ≤ (process margin perCore global p c).2.processed) ∨
    (Validated margin c ∧ (process margin perCore global p c).2.data = p.data ++ [c] ∧
      (((process margin perCore global p c).1 = .global ∧ global ≤ p.data.length + 1) ∨
       ((process margin perCore global p c).1 = .perCore ∧ p.data.length + 1 < global ∧ perCore ≤ p.processed + 1) ∨
       ((process margin perCore global p c).1 = .added ∧ p.data.length + 1 < global ∧ p.processed + 1 < perCore ∧
        (process margin perCore global p c).2.processed = p.processed + 1 ∧ (process margin perCore global p c).2.used = p.used))) := by
  unfold process
  cases hs : c.sections with
  | none => left; simp
  | some key =>
    simp only
    by_cases h1 : c.turns = false ∨ key ∈ p.used ∨ c.simulates = false
    · rw [if_pos h1]; left; simp
    · rw [if_neg h1]
      by_cases h2 : saturates margin c = true
      · rw [if_pos h2]; left; simp
      · rw [if_neg h2]
        have hv : Validated margin c := by
          refine ⟨by simp [hs], ?_, ?_, saturates_false (by simpa using h2)⟩
          · by_contra h; exact h1 (Or.inl (by simpa using h))
          · by_contra h; exact h1 (Or.inr (Or.inr (by simpa using h)))
        by_cases h3 : global ≤ p.data.length + 1
        · rw [if_pos h3]; right; exact ⟨hv, rfl, Or.inl ⟨rfl, h3⟩⟩
        · rw [if_neg h3]
          by_cases h4 : perCore ≤ p.processed + 1
          · rw [if_pos h4]; right; exact ⟨hv, rfl, Or.inr (Or.inl ⟨rfl, by omega, h4⟩)⟩
          · rw [if_neg h4]; right; exact ⟨hv, rfl, Or.inr (Or.inr ⟨rfl, by omega, by omega, rfl, rfl⟩)⟩

/-- The coils of one core: what is added, and how much. -/
theorem coils_spec (margin : K) (perCore global : ℕ) (cs : List (Cand M K)) : ∀ p : Pool M K,
    ∃ new : List (Cand M K), (coils margin perCore global cs p).1.data = p.data ++ new ∧ new.Sublist cs ∧
      (∀ c ∈ new, Validated margin c) ∧ new.length ≤ max 1 (perCore - p.processed) ∧
      p.data.length + new.length ≤ max global (p.data.length + 1) ∧
      ((coils margin perCore global cs p).2 = false → p.data.length < global → p.data.length + new.length < global) := by
  induction cs with
  | nil => intro p; exact ⟨[], by simp [coils], List.Sublist.refl _, by simp, by simp, by simp, by simp⟩
  | cons c cs ih =>
    intro p
    have hp := process_cases margin perCore global p c
    rcases he : process margin perCore global p c with ⟨v, p'⟩
    rw [he] at hp
    simp only at hp
    rcases hp with ⟨hv, hd, hu, hn⟩ | ⟨hval, hd, ⟨hv, hg⟩ | ⟨hv, hg, hc⟩ | ⟨hv, hg, hc, hpr, hus⟩⟩
    · subst hv
      obtain ⟨new, h1, h2, h3, h4, h5, h6⟩ := ih p'
      rw [hd] at h1 h5 h6
      refine ⟨new, ?_, h2.cons _, h3, ?_, h5, ?_⟩
      · simp only [coils, he]; exact h1
      · exact h4.trans (by omega)
      · intro h; simp only [coils, he] at h; exact h6 h
    · subst hv
      refine ⟨[c], by simp only [coils, he]; exact hd, by simp, by simpa using hval, by simp, by simp, ?_⟩
      intro h; simp only [coils, he] at h; exact absurd h (by decide)
    · subst hv
      exact ⟨[c], by simp only [coils, he]; exact hd, by simp, by simpa using hval, by simp, by simp, fun _ _ => by simpa using hg⟩
    · subst hv
      obtain ⟨new, h1, h2, h3, h4, h5, h6⟩ := ih p'
      rw [hd] at h1 h5 h6
      rw [hpr] at h4
      simp only [List.length_append, List.length_singleton] at h5 h6
      refine ⟨c :: new, ?_, h2.cons₂ _, ?_, ?_, ?_, ?_⟩
      · simp only [coils, he]; rw [h1]; simp
      · intro x hx
        rcases List.mem_cons.mp hx with rfl | hx
        · exact hval
        · exact h3 x hx
      · rw [List.length_cons]; omega
      · rw [List.length_cons]; omega
      · intro h _
        simp only [coils, he] at h
        have := h6 h hg
        rw [List.length_cons]; omega

theorem wind_spec (margin : K) (results : ℕ) (core : Core M N K) (s : State M N K) :
    ∃ new : List (Cand M K), (wind margin results core s).data = s.data ++ new ∧ new.Sublist core.coils ∧
      (∀ c ∈ new, Validated margin c) ∧ new.length ≤ max 1 (min 5 ((results + 1) / 2)) ∧
      (wind margin results core s).data.length ≤ max (globalCap results) (s.data.length + 1) ∧
      ((wind margin results core s).capped = false → s.data.length < globalCap results →
        (wind margin results core s).data.length < globalCap results) := by
  obtain ⟨new, h1, h2, h3, h4, h5, h6⟩ :=
    coils_spec margin (perCoreCap results) (globalCap results) core.coils ⟨[], s.data, 0⟩
  refine ⟨new, h1, h2, h3, h4, ?_, ?_⟩
  · show (coils margin _ _ core.coils ⟨[], s.data, 0⟩).1.data.length ≤ _
    rw [h1, List.length_append]; exact h5
  · intro hc hlt
    simp only [wind, Bool.or_eq_false_iff] at hc
    show (coils margin _ _ core.coils ⟨[], s.data, 0⟩).1.data.length < _
    rw [h1, List.length_append]
    exact h6 hc.2 hlt

theorem blocks_more {margin : K} {results : ℕ} {a b : List (Core M N K)} {e e' : List N} {d : List (Cand M K)}
    (h : Blocks margin results a e d) (hab : ∀ c ∈ a, c ∈ b) (he : e.Sublist e') : Blocks margin results b e' d := by
  obtain ⟨bl, h1, h2, h3, h4⟩ := h
  refine ⟨bl, h1.trans he, h2, h3, fun x hx => ?_⟩
  obtain ⟨g1, g2, core, g3, g4, g5⟩ := h4 x hx
  exact ⟨g1, g2, core, hab core g3, g4, g5⟩

theorem loop_blocks (margin : K) (results expected : ℕ) (stop : Bool) (all : List (Core M N K)) (cs : List (Core M N K)) :
    ∀ s : State M N K, (∀ c ∈ cs, c ∈ all) → s.evaluated.Nodup → s.evaluated.length < 40 → Blocks margin results all s.evaluated s.data →
      (loop margin results expected stop cs s).evaluated.Nodup ∧ (loop margin results expected stop cs s).evaluated.length ≤ 40 ∧
        Blocks margin results all (loop margin results expected stop cs s).evaluated (loop margin results expected stop cs s).data := by
  induction cs with
  | nil => intro s _ h1 h2 h3; exact ⟨h1, h2.le, h3⟩
  | cons c cs ih =>
    intro s hall h1 h2 h3
    have hcs : ∀ c ∈ cs, c ∈ all := fun x hx => hall x (List.mem_cons_of_mem _ hx)
    cases hn : c.name with
    | none => simp only [loop, hn]; exact ih s hcs h1 h2 h3
    | some n =>
      simp only [loop, hn]
      by_cases hm : n ∈ s.evaluated
      · rw [if_pos hm]; exact ih s hcs h1 h2 h3
      · rw [if_neg hm]
        have hnd : (s.evaluated ++ [n]).Nodup := by
          rw [List.nodup_append]
          exact ⟨h1, by simp, fun a ha b hb => by rw [List.mem_singleton] at hb; subst hb; exact fun h => hm (h ▸ ha)⟩
        by_cases hmax : maxEvaluated ≤ s.evaluated.length + 1
        · rw [if_pos hmax]
          exact ⟨hnd, by rw [List.length_append, List.length_singleton]; omega, blocks_more h3 (fun c h => h) (List.sublist_append_left _ _)⟩
        · rw [if_neg hmax]
          have hlen : s.evaluated.length + 1 < 40 := by unfold maxEvaluated at hmax; omega
          obtain ⟨new, g1, g2, g3, g4, _, _⟩ := wind_spec margin results c { s with evaluated := s.evaluated ++ [n] }
          have hev : (wind margin results c { s with evaluated := s.evaluated ++ [n] }).evaluated = s.evaluated ++ [n] := rfl
          have hb : Blocks margin results all (s.evaluated ++ [n])
              (wind margin results c { s with evaluated := s.evaluated ++ [n] }).data := by
            obtain ⟨bl, k1, k2, k3, k4⟩ := h3
            refine ⟨bl ++ [(n, new)], ?_, ?_, ?_, ?_⟩
            · rw [List.map_append]; exact k1.append (List.Sublist.refl _)
            · rw [g1]; simp [k2]
            · have := k1.length_le
              rw [List.length_map] at this
              rw [List.length_append, List.length_singleton]; omega
            · intro b hb
              rcases List.mem_append.mp hb with hb | hb
              · exact k4 b hb
              · rw [List.mem_singleton] at hb
                subst hb
                exact ⟨g4, g3, c, hall c (by simp), hn, g2⟩
          have hlen' : (s.evaluated ++ [n]).length < 40 := by rw [List.length_append, List.length_singleton]; omega
          split
          · exact ⟨hnd, by rw [hev]; exact hlen'.le, hb⟩
          · exact ih _ hcs hnd hlen' hb

theorem rounds_blocks (margin : K) (results expected : ℕ) (stop : Bool) (all : List (Core M N K)) (ls : List (List (Core M N K))) :
    ∀ (previous : Option ℕ) (s : State M N K), (∀ l ∈ ls, ∀ c ∈ l, c ∈ all) → s.evaluated.Nodup → s.evaluated.length ≤ 40 →
      Blocks margin results all s.evaluated s.data →
      (rounds margin results expected stop ls previous s).evaluated.Nodup ∧
        Blocks margin results all (rounds margin results expected stop ls previous s).evaluated
          (rounds margin results expected stop ls previous s).data := by
  induction ls with
  | nil => intro _ s _ h1 _ h3; exact ⟨h1, h3⟩
  | cons l ls ih =>
    intro previous s hall h1 h2 h3
    simp only [rounds]
    split
    · exact ⟨h1, h3⟩
    · rename_i hc
      split
      · exact ⟨h1, h3⟩
      · have hlt : s.evaluated.length < 40 := by
          by_contra h
          exact hc (Or.inr (Or.inl (by unfold maxEvaluated; omega)))
        obtain ⟨k1, k2, k3⟩ := loop_blocks margin results expected stop all l s (hall l (by simp)) h1 hlt h3
        exact ih _ _ (fun l hl => hall l (by simp [hl])) k1 k2 k3

theorem loop_stop (margin : K) (results expected : ℕ) (cs : List (Core M N K)) : ∀ s : State M N K,
    s.data.length < globalCap results →
      (loop margin results expected true cs s).data.length ≤ globalCap results ∧
      ((loop margin results expected true cs s).capped = false → (loop margin results expected true cs s).data.length < globalCap results) := by
  induction cs with
  | nil => intro s h; exact ⟨h.le, fun _ => h⟩
  | cons c cs ih =>
    intro s h
    cases hn : c.name with
    | none => simp only [loop, hn]; exact ih s h
    | some n =>
      simp only [loop, hn]
      split
      · exact ih s h
      · split
        · exact ⟨h.le, fun _ => h⟩
        · obtain ⟨new, _, _, _, _, g5, g6⟩ := wind_spec margin results c { s with evaluated := s.evaluated ++ [n] }
          split
          · exact ⟨g5.trans (by simp only; omega), fun hc => g6 hc h⟩
          · rename_i hc
            refine ih _ (g6 ?_ h)
            by_contra hcap
            exact hc ⟨trivial, Or.inl (by simpa using hcap)⟩

theorem rounds_stop (margin : K) (results expected : ℕ) (ls : List (List (Core M N K))) : ∀ (previous : Option ℕ) (s : State M N K),
    s.data.length ≤ globalCap results → (s.capped = false → s.data.length < globalCap results) →
      (rounds margin results expected true ls previous s).data.length ≤ globalCap results := by
  induction ls with
  | nil => intro _ s h _; exact h
  | cons l ls ih =>
    intro previous s h1 h2
    simp only [rounds]
    split
    · exact h1
    · rename_i hc
      split
      · exact h1
      · have := loop_stop margin results expected l s (h2 (by
          by_contra h; exact hc (Or.inr (Or.inr (by simpa using h)))))
        exact ih _ _ this.1 this.2

theorem loop_grow (margin : K) (results expected : ℕ) (stop : Bool) (cs : List (Core M N K)) : ∀ s : State M N K,
    s.data.length ≤ globalCap results + s.evaluated.length →
      (loop margin results expected stop cs s).data.length ≤ globalCap results + (loop margin results expected stop cs s).evaluated.length := by
  induction cs with
  | nil => intro s h; exact h
  | cons c cs ih =>
    intro s h
    cases hn : c.name with
    | none => simp only [loop, hn]; exact ih s h
    | some n =>
      simp only [loop, hn]
      split
      · exact ih s h
      · split
        · simp only [List.length_append, List.length_singleton]; omega
        · obtain ⟨new, _, _, _, _, g5, _⟩ := wind_spec margin results c { s with evaluated := s.evaluated ++ [n] }
          have hw : (wind margin results c { s with evaluated := s.evaluated ++ [n] }).data.length ≤
              globalCap results + (wind margin results c { s with evaluated := s.evaluated ++ [n] }).evaluated.length := by
            have hev : (wind margin results c { s with evaluated := s.evaluated ++ [n] }).evaluated = s.evaluated ++ [n] := rfl
            rw [hev, List.length_append, List.length_singleton]
            simp only at g5
            omega
          split
          · exact hw
          · exact ih _ hw

theorem loop_evaluated (margin : K) (results expected : ℕ) (stop : Bool) (cs : List (Core M N K)) : ∀ s : State M N K,
    s.evaluated.length < 40 → (loop margin results expected stop cs s).evaluated.length ≤ 40 := by
  induction cs with
  | nil => intro s h; exact h.le
  | cons c cs ih =>
    intro s h
    cases hn : c.name with
    | none => simp only [loop, hn]; exact ih s h
    | some n =>
      simp only [loop, hn]
      split
      · exact ih s h
      · split
        · simp only [List.length_append, List.length_singleton]; omega
        · rename_i hmax
          have hlen : (s.evaluated ++ [n]).length < 40 := by
            unfold maxEvaluated at hmax
            rw [List.length_append, List.length_singleton]; omega
          split
          · exact hlen.le
          · exact ih _ hlen

theorem rounds_grow (margin : K) (results expected : ℕ) (stop : Bool) (ls : List (List (Core M N K))) :
    ∀ (previous : Option ℕ) (s : State M N K), s.data.length ≤ globalCap results + s.evaluated.length → s.evaluated.length ≤ 40 →
      (rounds margin results expected stop ls previous s).data.length ≤ globalCap results + 40 := by
  induction ls with
  | nil => intro _ s h h40; exact h.trans (by omega)
  | cons l ls ih =>
    intro previous s h1 h40
    simp only [rounds]
    split
    · exact h1.trans (by omega)
    · rename_i hc
      split
      · exact h1.trans (by omega)
      · have hlt : s.evaluated.length < 40 := by
          by_contra h
          exact hc (Or.inr (Or.inl (by unfold maxEvaluated; omega)))
        exact ih _ _ (loop_grow margin results expected stop l s h1) (loop_evaluated margin results expected stop l s hlt)

/-! ## C215: the pool of candidates -/

/-- **C215.** The first search keeps at most four times as many candidates as results are asked for. -/
theorem pool_bounded (margin : K) (results windings : ℕ) (advised : List (Core M N K) × List (Core M N K)) :
    (search margin results windings true advised).data.length ≤ 4 * max 1 results := by
  have := rounds_stop margin results (expectedCores results windings) [advised.1, advised.2] none
    (⟨[], 0, [], false⟩ : State M N K) (by simp) (fun _ => by simp [globalCap])
  unfold globalCap at this
  unfold search
  omega

/-- **C215.** Either search looks at less than forty cores, each at most once by its name, and keeps of each only coils that went through
the whole validation, at most five or the half of the results (but one in any case). -/
theorem pool_validated (margin : K) (results windings : ℕ) (stop : Bool) (advised : List (Core M N K) × List (Core M N K)) :
    ∃ evaluated : List N, evaluated.Nodup ∧
      Blocks margin results (advised.1 ++ advised.2) evaluated (search margin results windings stop advised).data := by
  refine ⟨_, rounds_blocks margin results (expectedCores results windings) stop (advised.1 ++ advised.2) [advised.1, advised.2] none
    ⟨[], 0, [], false⟩ ?_ (by simp) (by simp) ⟨[], by simp, by simp, by simp, by simp⟩⟩
  intro l hl c hc
  simp only [List.mem_cons, List.not_mem_nil, or_false] at hl
  rcases hl with rfl | rfl
  · exact List.mem_append_left _ hc
  · exact List.mem_append_right _ hc

/-- **C215.** The retry without toroids keeps at most forty candidates more than that.

Partial: the documented bound, that of `pool_bounded`, is exceeded, see `retry_overflows`. -/
theorem retry_bounded_partial (margin : K) (results windings : ℕ) (advised : List (Core M N K) × List (Core M N K)) :
    (search margin results windings false advised).data.length ≤ 4 * max 1 results + 40 := by
  have := rounds_grow margin results (expectedCores results windings) false [advised.1, advised.2] none
    (⟨[], 0, [], false⟩ : State M N K) (by simp) (by simp)
  unfold globalCap at this
  unfold search
  omega

/-- A candidate that meets everything. -/
def plain (i : ℕ) : Cand ℕ ℚ := ⟨i, some (2, 0), true, true, true, [(some 1, 3)], true, none⟩

/-- Cores with as many good coils each. -/
def plainCores (cores coilsEach : ℕ) : List (Core ℕ ℕ ℚ) :=
  (List.range cores).map (fun i => ⟨some i, (List.range coilsEach).map (fun j => plain (100 * i + j))⟩)

/-- **C215.** The retry keeps more than four times the results asked for, and goes on winding cores when enough are wound: for one result, all
of twenty cores, where the first search winds one. -/
theorem retry_overflows : (search (6 / 5) 1 1 false (plainCores 20 2, [])).data.length = 20 ∧
    (search (6 / 5) 1 1 false (plainCores 20 2, [])).wound = 20 ∧
    (search (6 / 5) 1 1 true (plainCores 20 2, [])).wound = 1 := by decide +kernel

/-- Case of `pool_bounded` and `pool_validated`: three results of one winding, two coils of each of three cores; a coil that saturates, one
without turns and a core seen before are left out. -/
example : ((search (6 / 5) 3 1 true
      (plainCores 2 3 ++ [⟨some 0, [plain 7]⟩, ⟨none, [plain 8]⟩,
        ⟨some 5, [{ plain 9 with points := [(some 1, 11 / 10)] }, { plain 10 with turns := false }, plain 11, plain 12]⟩], [])).data.map Cand.design) =
    [0, 1, 100, 101, 11] := by decide +kernel

/-! ## C216: coils alike in sections and margin -/

/-- The same candidate with other sections and margin. -/
def relabel (g : ℕ × K → ℕ × K) (c : Cand M K) : Cand M K := { c with sections := c.sections.map g }

/-- A core with its coils so changed. -/
def Core.relabel (g : ℕ × K → ℕ × K) (core : Core M N K) : Core M N K := { core with coils := core.coils.map (Design.relabel g) }

theorem coils_relabel (g : ℕ × K → ℕ × K) (margin : K) (perCore global : ℕ) (cs : List (Cand M K)) : ∀ (data : List (Cand M K)) (n : ℕ),
    (coils margin perCore global (cs.map (relabel g)) ⟨[], data.map (relabel g), n⟩).1.data =
      (coils margin perCore global cs ⟨[], data, n⟩).1.data.map (relabel g) ∧
    (coils margin perCore global (cs.map (relabel g)) ⟨[], data.map (relabel g), n⟩).2 =
      (coils margin perCore global cs ⟨[], data, n⟩).2 := by
  induction cs with
  | nil => intro data n; exact ⟨rfl, rfl⟩
  | cons c cs ih =>
    intro data n
    cases hs : c.sections with
    | none =>
      have hs' : (relabel g c).sections = none := by simp [relabel, hs]
      simp only [List.map_cons, coils, process, hs, hs']
      exact ih data n
    | some key =>
      have hs' : (relabel g c).sections = some (g key) := by simp [relabel, hs]
      have hsat : saturates margin (relabel g c) = saturates margin c := rfl
      have ht : (relabel g c).turns = c.turns := rfl
      have hsi : (relabel g c).simulates = c.simulates := rfl
      simp only [List.map_cons, coils, process, hs, hs', hsat, ht, hsi, List.not_mem_nil, false_or, List.length_map]
      by_cases h1 : c.turns = false ∨ c.simulates = false
      · simp only [if_pos h1]; exact ih data n
      · simp only [if_neg h1]
        by_cases h2 : saturates margin c = true
        · simp only [if_pos h2]; exact ih data (n + 1)
        · simp only [if_neg h2]
          have hd : data.map (relabel g) ++ [relabel g c] = (data ++ [c]).map (relabel g) := by simp
          by_cases h3 : global ≤ data.length + 1
          · simp only [if_pos h3]; exact ⟨hd, trivial⟩
          · simp only [if_neg h3]
            by_cases h4 : perCore ≤ n + 1
            · simp only [if_pos h4]; exact ⟨hd, trivial⟩
            · simp only [if_neg h4]; rw [hd]; exact ih _ _

/-- States that differ only so. -/
def Relabelled (g : ℕ × K → ℕ × K) (s' s : State M N K) : Prop :=
  s'.evaluated = s.evaluated ∧ s'.wound = s.wound ∧ s'.data = s.data.map (relabel g) ∧ s'.capped = s.capped

theorem wind_relabel (g : ℕ × K → ℕ × K) (margin : K) (results : ℕ) (core : Core M N K) (s' s : State M N K) (h : Relabelled g s' s) :
    Relabelled g (wind margin results (core.relabel g) s') (wind margin results core s) := by
  obtain ⟨h1, h2, h3, h4⟩ := h
  have := coils_relabel g margin (perCoreCap results) (globalCap results) core.coils s.data 0
  refine ⟨h1, ?_, ?_, ?_⟩
  · simp only [wind, Core.relabel, List.isEmpty_map, h2]
  · simp only [wind, Core.relabel, h3]; exact this.1
  · simp only [wind, Core.relabel, h3, h4, this.2]

theorem loop_relabel (g : ℕ × K → ℕ × K) (margin : K) (results expected : ℕ) (stop : Bool) (cs : List (Core M N K)) :
    ∀ s' s : State M N K, Relabelled g s' s →
      Relabelled g (loop margin results expected stop (cs.map (Core.relabel g)) s') (loop margin results expected stop cs s) := by
  induction cs with
  | nil => intro s' s h; exact h
  | cons c cs ih =>
    intro s' s h
    have hn' : (c.relabel g).name = c.name := rfl
    cases hn : c.name with
    | none => simp only [List.map_cons, loop, hn, hn']; exact ih s' s h
    | some n =>
      simp only [List.map_cons, loop, hn, hn', h.1]
      by_cases hm : n ∈ s.evaluated
      · simp only [if_pos hm]; exact ih s' s h
      · simp only [if_neg hm]
        by_cases hx : maxEvaluated ≤ s.evaluated.length + 1
        · simp only [if_pos hx]; exact ⟨rfl, h.2⟩
        · simp only [if_neg hx]
          have hw := wind_relabel g margin results c { s' with evaluated := s.evaluated ++ [n] } { s with evaluated := s.evaluated ++ [n] }
            ⟨rfl, h.2⟩
          rw [hw.2.1, hw.2.2.2]
          split
          · exact hw
          · exact ih _ _ hw

/-- **C216.** Sections and margins of the coils never decide what is kept: with any others, all the same if need be, the same candidates
are kept. The comparison with those already used is never made with a used one. -/
theorem sections_never_compared (g : ℕ × K → ℕ × K) (margin : K) (results windings : ℕ) (stop : Bool)
    (advised : List (Core M N K) × List (Core M N K)) :
    (search margin results windings stop (advised.1.map (Core.relabel g), advised.2.map (Core.relabel g))).data =
      (search margin results windings stop advised).data.map (relabel g) := by
  have hrounds : ∀ (ls : List (List (Core M N K))) (previous : Option ℕ) (s' s : State M N K), Relabelled g s' s →
      Relabelled g (rounds margin results (expectedCores results windings) stop (ls.map (List.map (Core.relabel g))) previous s')
        (rounds margin results (expectedCores results windings) stop ls previous s) := by
    intro ls
    induction ls with
    | nil => intro _ s' s h; exact h
    | cons l ls ih =>
      intro previous s' s h
      simp only [List.map_cons, rounds, h.1, h.2.1, h.2.2.2, List.length_map]
      split
      · exact h
      · split
        · exact h
        · exact ih _ _ _ (loop_relabel g margin results _ stop l s' s h)
  exact (hrounds [advised.1, advised.2] none ⟨[], 0, [], false⟩ ⟨[], 0, [], false⟩ ⟨rfl, rfl, rfl, rfl⟩).2.2.1

/-- **C216.** Two coils of the same core with the same number of sections and the same margin are both kept. -/
theorem same_sections_twice : (search (6 / 5) 4 1 true (plainCores 1 2, [])).data = [plain 0, plain 1] ∧
    (plain 0).sections = (plain 1).sections := by decide +kernel

/-! ## C217: the best designs -/

theorem raw_eq (evaluate : ℕ → Cand M K → Eval K) (kind : ℕ) (data : List (Cand M K)) (r : List (Num K))
    (h : raw evaluate kind data = some r) : r.length = data.length := by
  induction data generalizing r with
  | nil => simp only [raw, Option.some.injEq] at h; subst h; rfl
  | cons c cs ih =>
    simp only [raw] at h
    cases he : evaluate kind c with
    | threw msg => simp [he] at h
    | answer v sc =>
      cases hr : raw evaluate kind cs with
      | none => simp [he, hr] at h
      | some r' =>
        simp only [he, hr, Option.some.injEq] at h
        subst h
        simp [ih r' hr]

theorem raw_mem (evaluate : ℕ → Cand M K → Eval K) (kind : ℕ) (data : List (Cand M K)) (r : List (Num K))
    (h : raw evaluate kind data = some r) : ∀ c ∈ data, ∀ ok score, evaluate kind c = .answer ok score → score ∈ r := by
  induction data generalizing r with
  | nil => intro c hc; exact absurd hc (by simp)
  | cons x cs ih =>
    intro c hc ok score hs
    simp only [raw] at h
    cases he : evaluate kind x with
    | threw msg => simp [he] at h
    | answer v sc =>
      cases hr : raw evaluate kind cs with
      | none => simp [he, hr] at h
      | some r' =>
        simp only [he, hr, Option.some.injEq] at h
        subst h
        rcases List.mem_cons.mp hc with rfl | hm
        · rw [he] at hs
          simp only [Eval.answer.injEq] at hs
          simp [hs.2]
        · exact List.mem_cons_of_mem _ (ih r' hr c hm ok score hs)

theorem allSome_length (l : List (Option K)) (r : List K) (h : allSome l = some r) : r.length = l.length := by
  induction l generalizing r with
  | nil => simp only [allSome, Option.some.injEq] at h; subst h; rfl
  | cons x l ih =>
    cases x with
    | none => simp [allSome] at h
    | some x =>
      simp only [allSome, Option.map_eq_some_iff] at h
      obtain ⟨r', h1, rfl⟩ := h
      simp [ih r' h1]

theorem normalizeList_length (lg : K → K) (w : K) (invert log : Bool) (r : List (Num K)) (l : List (Option K))
    (h : normalizeList lg w invert log r = some l) : l.length = r.length := by
  cases r with
  | nil => simp only [normalizeList, Option.some.injEq] at h; subst h; rfl
  | cons x r =>
    simp only [normalizeList] at h
    split at h
    · exact absurd h (by simp)
    · simp only [Option.some.injEq] at h
      rw [← h, List.length_map]

theorem plus_fst (totals : List (Cand M K × K)) (ss : List K) (h : ss.length = totals.length) :
    (plus totals ss).map Prod.fst = totals.map Prod.fst := by
  unfold plus
  rw [List.map_map]
  have : (Prod.fst ∘ fun p : (Cand M K × K) × K => (p.1.1, p.1.2 + p.2)) = Prod.fst ∘ Prod.fst := rfl
  rw [this, ← List.map_map, List.map_fst_zip (by omega)]

theorem plus_map (data : List (Cand M K)) (t g : Cand M K → K) (ss : List K) (h : ss = data.map g) :
    plus (data.map (fun c => (c, t c))) ss = data.map (fun c => (c, t c + g c)) := by
  subst h
  unfold plus
  induction data with
  | nil => rfl
  | cons c cs ih => simp only [List.map_cons, List.zip_cons_cons, ih]

theorem scores_fst (lg : K → K) (evaluate : ℕ → Cand M K → Eval K) (data : List (Cand M K)) (flow : List (Op K)) :
    ∀ (totals l : List (Cand M K × K)), totals.map Prod.fst = data → scores lg evaluate data flow totals = .designs l →
      l.map Prod.fst = data := by
  induction flow with
  | nil => intro totals l h1 h2; simp only [scores, Answer.designs.injEq] at h2; rw [← h2, h1]
  | cons op ops ih =>
    intro totals l h1 h2
    simp only [scores] at h2
    cases hr : raw evaluate op.kind data with
    | none => simp [hr] at h2
    | some r =>
      cases hn : normalizeList lg op.weight op.invert op.log r with
      | none => simp [hr, hn] at h2
      | some nl =>
        cases ha : allSome nl with
        | none => simp [hr, hn, ha] at h2
        | some al =>
          simp only [hr, hn, ha] at h2
          refine ih _ _ ?_ h2
          rw [plus_fst, h1]
          rw [allSome_length _ _ ha, normalizeList_length _ _ _ _ _ _ hn, raw_eq _ _ _ _ hr, ← h1, List.length_map]

theorem scoreMagnetics_fst (lg : K → K) (evaluate : ℕ → Cand M K → Eval K) (flow : List (Op K)) (data : List (Cand M K))
    (l : List (Cand M K × K)) (h : scoreMagnetics lg evaluate flow data = .designs l) : l.map Prod.fst = data := by
  unfold scoreMagnetics at h
  by_cases he : data.isEmpty = true
  · rw [if_pos he] at h
    simp only [Answer.designs.injEq] at h
    rw [List.isEmpty_iff] at he
    rw [← h, he]; rfl
  · rw [if_neg he] at h
    cases hs : scores lg evaluate data flow (data.map (fun c => (c, 0))) with
    | threw => simp [hs] at h
    | notFinite => simp [hs] at h
    | designs l' =>
      simp only [hs, Answer.designs.injEq] at h
      have := scores_fst lg evaluate data flow _ _ (by simp [Function.comp_def]) hs
      rw [← h, List.map_map]
      exact this

/-- The designs of which the best are answered: the valid ones of the pool, or all of it when there is none. -/
def Kept (data kept : List (Cand M K)) : Prop :=
  kept = (data.filter (fun c => c.valid)) ∧ kept ≠ [] ∨ kept = data ∧ ∀ c ∈ data, c.valid = false

/-- **C217.** What is made of a pool: the valid designs, or all of them when there is none, best score first, as many as asked for. -/
theorem best_answered {sort : List (Cand M K × K) → List (Cand M K × K)} (hs : SortsDown sort) (lg : K → K)
    (evaluate : ℕ → Cand M K → Eval K) (flow : List (Op K)) (results : ℕ) (data : List (Cand M K)) (l : List (Cand M K × K))
    (h : best lg evaluate sort flow results data = .designs l) :
    ∃ (ranked : List (Cand M K × K)) (kept : List (Cand M K)), Kept data kept ∧ (ranked.map Prod.fst).Perm kept ∧
      ranked.Pairwise (fun a b => b.2 ≤ a.2) ∧ l = ranked.take results := by
  unfold best at h
  cases hsc : scoreMagnetics lg evaluate flow data with
  | threw => simp [hsc] at h
  | notFinite => simp [hsc] at h
  | designs sc =>
    simp only [hsc, Answer.designs.injEq] at h
    have hf := scoreMagnetics_fst lg evaluate flow data sc hsc
    refine ⟨sort (dropInvalid sc), (dropInvalid sc).map Prod.fst, ?_, (hs _).1.map _, (hs _).2, ?_⟩
    · unfold dropInvalid Kept
      by_cases ha : sc.any (fun e => e.1.valid) = true
      · left
        rw [if_pos ha]
        have : (sc.filter (fun e => e.1.valid)).map Prod.fst = data.filter (fun c => c.valid) := by
          rw [← hf, List.filter_map]; rfl
        rw [this]
        refine ⟨rfl, ?_⟩
        rw [← this]
        intro hnil
        rw [List.map_eq_nil_iff, List.filter_eq_nil_iff] at hnil
        obtain ⟨x, hx, hv⟩ := List.any_eq_true.mp ha
        exact hnil x hx hv
      · right
        rw [if_neg ha]
        refine ⟨hf, fun c hc => ?_⟩
        rw [← hf] at hc
        obtain ⟨e, he, rfl⟩ := List.mem_map.mp hc
        by_contra hv
        exact ha (List.any_eq_true.mpr ⟨e, he, by simpa using hv⟩)
    · rw [← h, cut_eq]

/-- **C217.** The whole design: at most as many as asked for, best first; each was validated, and if one of them has a valid coil, all have. -/
theorem designs_answered {sort : List (Cand M K × K) → List (Cand M K × K)} (hs : SortsDown sort) (lg : K → K) (margin : K)
    (evaluate : ℕ → Cand M K → Eval K) (flow : List (Op K)) (results windings : ℕ) (retry : Bool)
    (first second : List (Core M N K) × List (Core M N K)) (l : List (Cand M K × K))
    (h : designed lg margin evaluate sort flow results windings retry first second = .designs l) :
    l.length ≤ results ∧ l.Pairwise (fun a b => b.2 ≤ a.2) ∧ (∀ x ∈ l, Validated margin x.1) ∧
      ((∃ x ∈ l, x.1.valid = true) → ∀ x ∈ l, x.1.valid = true) := by
  have key : ∀ (stop : Bool) (advised : List (Core M N K) × List (Core M N K)),
      best lg evaluate sort flow results (search margin results windings stop advised).data = .designs l →
      l.length ≤ results ∧ l.Pairwise (fun a b => b.2 ≤ a.2) ∧ (∀ x ∈ l, Validated margin x.1) ∧
        ((∃ x ∈ l, x.1.valid = true) → ∀ x ∈ l, x.1.valid = true) := by
    intro stop advised hb
    obtain ⟨ranked, kept, hk, hp, hd, hl⟩ := best_answered hs lg evaluate flow results _ l hb
    obtain ⟨ev, _, bl, _, hdata, _, hgood⟩ := pool_validated margin results windings stop advised
    have hsub : ∀ x ∈ l, x.1 ∈ kept := by
      intro x hx
      rw [hl] at hx
      exact hp.mem_iff.mp (List.mem_map.mpr ⟨x, List.mem_of_mem_take hx, rfl⟩)
    have hkd : ∀ c ∈ kept, c ∈ (search margin results windings stop advised).data := by
      intro c hc
      rcases hk with ⟨hk, _⟩ | ⟨hk, _⟩
      · rw [hk] at hc; exact (List.mem_filter.mp hc).1
      · rw [hk] at hc; exact hc
    refine ⟨by rw [hl, List.length_take]; omega, by rw [hl]; exact hd.sublist (List.take_sublist _ _), ?_, ?_⟩
    · intro x hx
      have := hkd _ (hsub x hx)
      rw [hdata] at this
      obtain ⟨b, hb1, hb2⟩ := List.mem_flatMap.mp this
      exact (hgood b hb1).2.1 _ hb2
    · rintro ⟨x, hx, hv⟩ y hy
      rcases hk with ⟨hk, _⟩ | ⟨hk, hno⟩
      · have := hsub y hy
        rw [hk] at this
        exact (List.mem_filter.mp this).2
      · have := hno _ (by rw [← hk]; exact hsub x hx)
        rw [hv] at this
        exact absurd this (by decide)
  unfold designed at h
  cases hb : best lg evaluate sort flow results (search margin results windings true first).data with
  | threw => simp [hb] at h
  | notFinite => simp [hb] at h
  | designs l1 =>
    cases l1 with
    | nil =>
      simp only [hb] at h
      cases retry with
      | true => exact key false second (by simpa using h)
      | false =>
        simp only [Bool.false_eq_true, if_false, Answer.designs.injEq] at h
        subst h
        simp
    | cons x xs =>
      simp only [hb, Answer.designs.injEq] at h
      subst h
      exact key true first hb

/-- **C217.** With filters without logarithms the score of each design is the sum of its normalised scores, each between zero and the weight and
in the order of the raw ones, less fifteen per cent for each core stacked on the first. -/
theorem score_is_sum [IsStrictOrderedRing K] (lg : K → K) (evaluate : ℕ → Cand M K → Eval K) (flow : List (Op K))
    (data : List (Cand M K)) (value : ℕ → Cand M K → K) (hlog : ∀ op ∈ flow, op.log = false) (hw : ∀ op ∈ flow, 0 ≤ op.weight)
    (hv : ∀ op ∈ flow, ∀ c ∈ data, ∃ ok, evaluate op.kind c = .answer ok (.fin (value op.kind c))) :
    ∃ fs : List (K → K), List.Forall₂ (fun op f => GoodScore op.weight op.invert (data.map (value op.kind)) f) flow fs ∧
      scoreMagnetics lg evaluate flow data = .designs (data.map (fun c =>
        (c, ((flow.zip fs).map (fun p => p.2 (value p.1.kind c))).sum * stackFactor c.stacked))) := by
  have hraw : ∀ (op : Op K), (∀ c ∈ data, ∃ ok, evaluate op.kind c = .answer ok (.fin (value op.kind c))) →
      raw evaluate op.kind data = some ((data.map (value op.kind)).map Num.fin) := by
    intro op
    induction data with
    | nil => intro _; rfl
    | cons c cs ih =>
      intro hc
      obtain ⟨ok, ho⟩ := hc c (by simp)
      simp only [raw, ho, ih (fun op hop c hc => hv op hop c (by simp [hc])) (fun c h => hc c (by simp [h])), List.map_cons]
  have hall : ∀ vs : List K, allSome (vs.map some) = some vs := by
    intro vs
    induction vs with
    | nil => rfl
    | cons v vs ih => simp [allSome, ih]
  have hsc : ∀ (flow : List (Op K)), (∀ op ∈ flow, op.log = false) → (∀ op ∈ flow, 0 ≤ op.weight) →
      (∀ op ∈ flow, ∀ c ∈ data, ∃ ok, evaluate op.kind c = .answer ok (.fin (value op.kind c))) → ∀ t : Cand M K → K,
      ∃ fs : List (K → K), List.Forall₂ (fun op f => GoodScore op.weight op.invert (data.map (value op.kind)) f) flow fs ∧
        scores lg evaluate data flow (data.map (fun c => (c, t c))) =
          .designs (data.map (fun c => (c, t c + ((flow.zip fs).map (fun p => p.2 (value p.1.kind c))).sum))) := by
    intro flow
    induction flow with
    | nil => intro _ _ _ t; exact ⟨[], .nil, by simp [scores]⟩
    | cons op ops ih =>
      intro h1 h2 h3 t
      obtain ⟨f, hf, hg⟩ := normalize_linear lg op.weight (h2 op (by simp)) op.invert (data.map (value op.kind))
      have hplus : plus (data.map (fun c => (c, t c))) ((data.map (value op.kind)).map f) =
          data.map (fun c => (c, t c + f (value op.kind c))) := by
        exact plus_map data t (fun c => f (value op.kind c)) _ (by rw [List.map_map]; rfl)
      obtain ⟨fs, hfs, hscores⟩ := ih (fun op h => h1 op (by simp [h])) (fun op h => h2 op (by simp [h])) (fun op h => h3 op (by simp [h]))
        (fun c => t c + f (value op.kind c))
      refine ⟨f :: fs, .cons hg hfs, ?_⟩
      have e : (data.map (value op.kind)).map (fun v => some (f v)) = ((data.map (value op.kind)).map f).map some := by simp
      simp only [scores, hraw op (h3 op (by simp)), h1 op (by simp), hf, e, hall, hplus, hscores, List.zip_cons_cons, List.map_cons,
        List.sum_cons, add_assoc]
  obtain ⟨fs, h1, h2⟩ := hsc flow hlog hw hv (fun _ => 0)
  refine ⟨fs, h1, ?_⟩
  unfold scoreMagnetics
  by_cases he : data.isEmpty = true
  · rw [if_pos he]
    rw [List.isEmpty_iff] at he
    subst he
    rfl
  · rw [if_neg he, h2]
    simp [Function.comp_def]

/-- **C217.** The factor for stacked cores: whole for one, less by fifteen per cent of the score for each more, and negative from eight on. -/
theorem stack_factor [IsStrictOrderedRing K] (n : ℕ) :
    (n ≤ 1 → (stackFactor (some n) : K) = 1) ∧ (1 ≤ n → (stackFactor (some (n + 1)) : K) = stackFactor (some n) - 15 / 100) ∧
      ((0 : K) < stackFactor (some n) ↔ n < 8) := by
  have hval : ∀ m : ℕ, 1 ≤ m → (stackFactor (some m) : K) = 1 - ((m : K) - 1) * (15 / 100) := by
    intro m hm
    unfold stackFactor
    by_cases h : 1 < m
    · simp only [if_pos h]
    · have : m = 1 := by omega
      subst this
      simp
  refine ⟨fun h => ?_, fun h => ?_, ?_⟩
  · unfold stackFactor
    simp only [if_neg (show ¬1 < n by omega)]
  · rw [hval n h, hval (n + 1) (by omega)]
    push_cast
    ring
  · by_cases h0 : n = 0
    · subst h0; simp [stackFactor]
    · rw [hval n (by omega)]
      constructor
      · intro h
        by_contra h8
        have : (8 : K) ≤ (n : K) := by exact_mod_cast (by omega : 8 ≤ n)
        linarith
      · intro h
        have : (n : K) ≤ 7 := by exact_mod_cast (by omega : n ≤ 7)
        linarith

/-- Filters for the cases: filter 0 scores the number of the design, filter 1 its stack, and refuses the even ones. -/
def filters (kind : ℕ) (c : Cand ℕ ℚ) : Eval ℚ :=
  if kind = 0 then .answer true (.fin c.design) else .answer (decide (c.design % 2 = 1)) (.fin ((c.stacked.getD 1 : ℕ) : ℚ))

/-- Best first, on literals. -/
def ranked (l : List (Cand ℕ ℚ × ℚ)) : List (Cand ℕ ℚ × ℚ) := l.insertionSort (fun a b => b.2 ≤ a.2)

theorem ranked_sorts : SortsDown ranked := by
  intro l
  have : Std.Total (fun a b : Cand ℕ ℚ × ℚ => b.2 ≤ a.2) := ⟨fun a b => le_total b.2 a.2⟩
  have : IsTrans (Cand ℕ ℚ × ℚ) (fun a b => b.2 ≤ a.2) := ⟨fun _ _ _ h1 h2 => le_trans h2 h1⟩
  exact ⟨List.perm_insertionSort _ _, List.pairwise_insertionSort _ _⟩

/-- Case of `designs_answered`: of a pool of four the invalid one is left out, though it would be the second, and the two best of the others
are answered. -/
example : designed id (6 / 5) filters ranked [⟨0, true, false, false, 1⟩, ⟨1, true, false, false, 1 / 2⟩] 2 1 false
      ([⟨some 0, [plain 3]⟩, ⟨some 1, [plain 1, { plain 2 with valid := false }]⟩], []) ([], []) =
    (.designs [(plain 1, 3 / 2), (plain 3, 1 / 2)] : Answer ℕ ℚ) := by decide +kernel

/-! ## C218: what the filters say of a design -/

/-- What a filter says, with other verdicts and the same scores. -/
def Eval.sameScore : Eval K → Eval K → Prop
  | .answer _ s, .answer _ s' => s = s'
  | .threw _, .threw _ => True
  | _, _ => False

theorem raw_same (e e' : ℕ → Cand M K → Eval K) (h : ∀ kind c, Eval.sameScore (e kind c) (e' kind c)) (kind : ℕ) (data : List (Cand M K)) :
    raw e kind data = raw e' kind data := by
  induction data with
  | nil => rfl
  | cons c cs ih =>
    have hc := h kind c
    simp only [raw, ih]
    cases h1 : e kind c <;> cases h2 : e' kind c <;> simp only [h1, h2, Eval.sameScore] at hc ⊢
    rw [hc]
    cases raw e' kind cs <;> rfl

/-- **C218.** Whether the filters accept a design decides nothing: with any other verdicts and the same scores the same designs are answered,
in the same order and with the same scores; and nothing of a filter being strictly required is read either. -/
theorem verdict_ignored (lg : K → K) (margin : K) (e e' : ℕ → Cand M K → Eval K)
    (h : ∀ kind c, Eval.sameScore (e kind c) (e' kind c)) (sort : List (Cand M K × K) → List (Cand M K × K)) (flow : List (Op K))
    (g : Bool → Bool) (results windings : ℕ) (retry : Bool) (first second : List (Core M N K) × List (Core M N K)) :
    designed lg margin e sort (flow.map (fun op => { op with strict := g op.strict })) results windings retry first second =
      designed lg margin e' sort flow results windings retry first second := by
  have hsc : ∀ (data : List (Cand M K)) (flow : List (Op K)) (totals : List (Cand M K × K)),
      scores lg e data (flow.map (fun op => { op with strict := g op.strict })) totals = scores lg e' data flow totals := by
    intro data flow
    induction flow with
    | nil => intro totals; rfl
    | cons op ops ih =>
      intro totals
      simp only [List.map_cons, scores, raw_same e e' h, ih]
  have hb : ∀ data : List (Cand M K), best lg e sort (flow.map (fun op => { op with strict := g op.strict })) results data =
      best lg e' sort flow results data := by
    intro data
    simp only [best, scoreMagnetics, hsc]
  simp only [designed, hb]

/-- **C218.** A design that a strictly required filter refuses is answered before one that it accepts. -/
theorem rejected_design_first :
    designed id (6 / 5) (fun _ c => if c.design = 1 then .answer false (.fin 0) else .answer true (.fin 1)) ranked
        [⟨0, true, false, true, 1⟩] 2 1 false ([⟨some 0, [plain 1]⟩, ⟨some 1, [plain 2]⟩], []) ([], []) =
      (.designs [(plain 1, 1), (plain 2, 0)] : Answer ℕ ℚ) := by decide +kernel

/-! ## C219: one design that cannot be scored -/

theorem raw_none (evaluate : ℕ → Cand M K → Eval K) (kind : ℕ) (data : List (Cand M K)) :
    raw evaluate kind data = none ↔ ∃ c ∈ data, ∃ msg, evaluate kind c = .threw msg := by
  induction data with
  | nil => simp [raw]
  | cons c cs ih =>
    simp only [raw, List.exists_mem_cons_iff]
    cases he : evaluate kind c with
    | threw msg => simp
    | answer v sc =>
      cases hr : raw evaluate kind cs with
      | none => rw [hr] at ih; simpa using ih.mp rfl
      | some r =>
        rw [hr] at ih
        simpa using ih

/-- Nothing is answered: the call throws, or a score is not a number. -/
def Lost : Answer M K → Prop
  | .designs _ => False
  | _ => True

theorem scores_lost [IsStrictOrderedRing K] (lg : K → K) (evaluate : ℕ → Cand M K → Eval K) (data : List (Cand M K)) (op : Op K) (c : Cand M K)
    (hc : c ∈ data) (hbad : (∃ msg, evaluate op.kind c = .threw msg) ∨ ∃ ok, evaluate op.kind c = .answer ok .nan) :
    ∀ (flow : List (Op K)) (totals : List (Cand M K × K)), op ∈ flow → Lost (scores lg evaluate data flow totals) := by
  intro flow
  induction flow with
  | nil => intro _ h; exact absurd h (by simp)
  | cons o ops ih =>
    intro totals hmem
    simp only [scores]
    cases hr : raw evaluate o.kind data with
    | none => trivial
    | some r =>
      simp only
      cases hn : normalizeList lg o.weight o.invert o.log r with
      | none => trivial
      | some l =>
        simp only
        cases ha : allSome l with
        | none => trivial
        | some al =>
          simp only
          rcases List.mem_cons.mp hmem with rfl | hm
          · exfalso
            rcases hbad with ⟨msg, hm⟩ | ⟨ok, hm⟩
            · have := (raw_none evaluate op.kind data).mpr ⟨c, hc, msg, hm⟩
              rw [this] at hr
              exact absurd hr (by simp)
            · have hin : Num.nan ∈ r := raw_mem evaluate op.kind data r hr c hc ok .nan hm
              have := (normalize_throws_iff lg op.weight op.invert op.log r).mpr (by simpa using hin)
              rw [this] at hn
              exact absurd hn (by simp)
          · exact ih _ hm

/-- **C219.** One candidate of the pool on which one of the filters throws, or that it scores with no number, and the call answers no design
at all, whatever the others are. -/
theorem one_bad_design_loses_all [IsStrictOrderedRing K] (lg : K → K) (margin : K) (evaluate : ℕ → Cand M K → Eval K)
    (sort : List (Cand M K × K) → List (Cand M K × K)) (flow : List (Op K)) (results windings : ℕ) (retry : Bool)
    (first second : List (Core M N K) × List (Core M N K)) (op : Op K) (hop : op ∈ flow) (c : Cand M K)
    (hc : c ∈ (search margin results windings true first).data)
    (hbad : (∃ msg, evaluate op.kind c = .threw msg) ∨ ∃ ok, evaluate op.kind c = .answer ok .nan) :
    Lost (designed lg margin evaluate sort flow results windings retry first second) := by
  have hne : (search margin results windings true first).data.isEmpty = false := by
    cases h : (search margin results windings true first).data with
    | nil => rw [h] at hc; exact absurd hc (by simp)
    | cons x xs => rfl
  have hs := scores_lost lg evaluate (search margin results windings true first).data op c hc hbad flow
    ((search margin results windings true first).data.map (fun c => (c, 0))) hop
  simp only [designed, best, scoreMagnetics, hne, Bool.false_eq_true, if_false]
  cases h : scores lg evaluate (search margin results windings true first).data flow
      ((search margin results windings true first).data.map (fun c => (c, 0))) with
  | designs l => rw [h] at hs; exact absurd hs (by simp [Lost])
  | threw => trivial
  | notFinite => trivial

/-- Case of `one_bad_design_loses_all`: two of three designs would do, and the call throws. -/
example : designed id (6 / 5) (fun _ c => if c.design = 2 then .threw "no" else .answer true (.fin 1)) ranked
        [⟨0, true, false, false, 1⟩] 3 1 true ([⟨some 0, [plain 1]⟩, ⟨some 1, [plain 2, plain 3]⟩], []) ([], []) =
      (.threw : Answer ℕ ℚ) ∧
    designed id (6 / 5) (fun _ _ => .answer true (.fin 1)) ranked
        [⟨0, true, false, false, 1⟩] 3 1 true ([⟨some 0, [plain 1]⟩, ⟨some 1, [plain 2, plain 3]⟩], []) ([], []) =
      (.designs [(plain 1, 1), (plain 2, 1), (plain 3, 1)] : Answer ℕ ℚ) := by decide +kernel

end Verif.Advice.Design
