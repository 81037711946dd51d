import Verif.Filters.Memo
import Mathlib.Algebra.Order.Field.Rat
import Mathlib.Algebra.Order.Field.Basic
import Mathlib.Tactic.Linarith
import Mathlib.Tactic.Ring
import Mathlib.Tactic.Positivity
import Mathlib.Tactic.FieldSimp

/-! # The gap of a fringing factor and the filters that remember (C196, C197, C198) -/

set_option linter.unusedSectionVars false

namespace Verif.Filters.Memo

variable {K : Type} [Field K] [LinearOrder K] [IsStrictOrderedRing K]

/-! ## C196: the gap of a fringing factor -/

/-- The factor crosses the limit between two lengths. -/
def Crosses (factor : K → K) (limit lower upper : K) : Prop := (factor lower - limit) * (factor upper - limit) ≤ 0

/-- A length near which the factor is the limit: its factor is within a thousandth, or it is the middle of an interval no wider than `width` in which
the factor crosses it. -/
def Near (factor : K → K) (limit width from_ upto x : K) : Prop :=
  from_ ≤ x ∧ x ≤ upto ∧
    (abs (factor x - limit) / limit < 1 / 1000 ∨
      ∃ lower upper : K, from_ ≤ lower ∧ upper ≤ upto ∧ lower ≤ upper ∧ x = (lower + upper) / 2 ∧ upper - lower ≤ width ∧ Crosses factor limit lower upper)

theorem crosses_split {factor : K → K} {limit lower middle upper : K} (h : Crosses factor limit lower upper)
    (hn : ¬ (factor lower - limit) * (factor middle - limit) ≤ 0) : Crosses factor limit middle upper := by
  unfold Crosses at *
  rw [not_le] at hn
  by_contra hc
  rw [not_le] at hc
  have h1 : 0 < ((factor lower - limit) * (factor middle - limit)) * ((factor middle - limit) * (factor upper - limit)) := mul_pos hn hc
  have h2 : ((factor lower - limit) * (factor middle - limit)) * ((factor middle - limit) * (factor upper - limit)) =
      ((factor lower - limit) * (factor upper - limit)) * (factor middle - limit) ^ 2 := by ring
  rw [h2] at h1
  have : ((factor lower - limit) * (factor upper - limit)) * (factor middle - limit) ^ 2 ≤ 0 := mul_nonpos_of_nonpos_of_nonneg h (sq_nonneg _)
  linarith

theorem bisect_near (factor : K → K) (limit width : K) : ∀ (left : ℕ) (lower upper : K), lower ≤ upper → Crosses factor limit lower upper →
    Near factor limit (max width ((upper - lower) / 2 ^ left)) lower upper (bisect factor limit width left lower upper (factor lower))
  | 0, lower, upper, hle, hc => by
    simp only [bisect, pow_zero, div_one]
    exact ⟨by linarith, by linarith, .inr ⟨lower, upper, le_refl _, le_refl _, hle, rfl, le_max_right _ _, hc⟩⟩
  | left + 1, lower, upper, hle, hc => by
    have hp : (0 : K) < 2 ^ left := by positivity
    have hhalf : ∀ a b : K, b - a = (upper - lower) / 2 → (b - a) / 2 ^ left = (upper - lower) / 2 ^ (left + 1) := by
      intro a b e
      rw [e, pow_succ, div_div, mul_comm (2 : K)]
    simp only [bisect]
    by_cases h1 : upper - lower > width
    · rw [if_pos h1]
      by_cases h2 : abs (factor ((lower + upper) / 2) - limit) / limit < 1 / 1000
      · rw [if_pos h2]; exact ⟨by linarith, by linarith, .inl h2⟩
      · rw [if_neg h2]
        by_cases h3 : (factor lower - limit) * (factor ((lower + upper) / 2) - limit) ≤ 0
        · rw [if_pos h3]
          obtain ⟨n1, n2, n3⟩ := bisect_near factor limit width left lower ((lower + upper) / 2) (by linarith) h3
          rw [hhalf _ _ (by ring)] at n3
          refine ⟨n1, by linarith, ?_⟩
          rcases n3 with n3 | ⟨a, b, ha, hb, hr⟩
          · exact .inl n3
          · exact .inr ⟨a, b, ha, by linarith, hr⟩
        · rw [if_neg h3]
          obtain ⟨n1, n2, n3⟩ := bisect_near factor limit width left ((lower + upper) / 2) upper (by linarith) (crosses_split hc h3)
          rw [hhalf _ _ (by ring)] at n3
          refine ⟨by linarith, n2, ?_⟩
          rcases n3 with n3 | ⟨a, b, ha, hb, hr⟩
          · exact .inl n3
          · exact .inr ⟨a, b, by linarith, hb, hr⟩
    · rw [if_neg h1]
      exact ⟨by linarith, by linarith, .inr ⟨lower, upper, le_refl _, le_refl _, hle, rfl, le_trans (not_lt.mp h1) (le_max_left _ _), hc⟩⟩

theorem crossing_some (limit : K) : ∀ (l : List (K × K)) {a b : K × K}, crossing limit l = some (a, b) →
    ∃ pre post, l = pre ++ a :: b :: post ∧ (a.2 - limit) * (b.2 - limit) ≤ 0 ∧
      ∀ x ∈ pre, 0 < (x.2 - limit) * (a.2 - limit)
  | [], _, _, h => by simp [crossing] at h
  | [_], _, _, h => by simp [crossing] at h
  | c :: d :: rest, a, b, h => by
    simp only [crossing] at h
    by_cases hp : (c.2 - limit) * (d.2 - limit) > 0
    · rw [if_pos hp] at h
      obtain ⟨pre, post, e, h1, h2⟩ := crossing_some limit (d :: rest) h
      refine ⟨c :: pre, post, by rw [e]; rfl, h1, ?_⟩
      intro x hx
      rcases List.mem_cons.mp hx with rfl | hx
      · cases pre with
        | nil =>
          simp only [List.nil_append, List.cons.injEq] at e
          rw [← e.1]; exact hp
        | cons p pre =>
          simp only [List.cons_append, List.cons.injEq] at e
          have h3 := h2 d (by rw [e.1]; simp)
          have h4 : 0 < ((x.2 - limit) * (d.2 - limit)) * ((d.2 - limit) * (a.2 - limit)) := mul_pos hp h3
          have h5 : ((x.2 - limit) * (d.2 - limit)) * ((d.2 - limit) * (a.2 - limit)) = ((x.2 - limit) * (a.2 - limit)) * (d.2 - limit) ^ 2 := by ring
          rw [h5] at h4
          by_contra hn
          have := mul_nonpos_of_nonpos_of_nonneg (not_lt.mp hn) (sq_nonneg (d.2 - limit))
          linarith
      · exact h2 x hx
    · rw [if_neg hp] at h
      simp only [Option.some.injEq, Prod.mk.injEq] at h
      obtain ⟨rfl, rfl⟩ := h
      exact ⟨[], rest, rfl, not_lt.mp hp, by simp⟩

theorem crossing_none (limit : K) : ∀ (l : List (K × K)), crossing limit l = none →
    ∀ (pre post : List (K × K)) (a b : K × K), l = pre ++ a :: b :: post → 0 < (a.2 - limit) * (b.2 - limit)
  | [], _, pre, post, a, b, e => by cases pre <;> simp at e
  | [c], _, pre, post, a, b, e => by
    cases pre with
    | nil => simp at e
    | cons p pre => cases pre <;> simp at e
  | c :: d :: rest, h, pre, post, a, b, e => by
    simp only [crossing] at h
    split_ifs at h with hp
    cases pre with
    | nil =>
      simp only [List.nil_append, List.cons.injEq] at e
      rw [← e.1, ← e.2.1]; exact hp
    | cons p pre =>
      simp only [List.cons_append, List.cons.injEq] at e
      exact crossing_none limit (d :: rest) h pre post a b e.2

theorem closest_spec (limit : K) : ∀ (l : List (K × K)) (best : K × K), ∃ p ∈ best :: l, closest limit best l = p.1 ∧
    ∀ q ∈ best :: l, abs (p.2 - limit) ≤ abs (q.2 - limit)
  | [], best => ⟨best, by simp, rfl, by simp⟩
  | c :: l, best => by
    simp only [closest]
    by_cases h : abs (c.2 - limit) < abs (best.2 - limit)
    · rw [if_pos h]
      obtain ⟨p, hp, e, hm⟩ := closest_spec limit l c
      refine ⟨p, List.mem_cons_of_mem _ hp, e, ?_⟩
      intro q hq
      rcases List.mem_cons.mp hq with rfl | hq
      · exact le_trans (hm c (by simp)) h.le
      · exact hm q hq
    · rw [if_neg h]
      obtain ⟨p, hp, e, hm⟩ := closest_spec limit l best
      refine ⟨p, ?_, e, ?_⟩
      · rcases List.mem_cons.mp hp with rfl | hp
        · simp
        · exact List.mem_cons_of_mem _ (List.mem_cons_of_mem _ hp)
      · intro q hq
        rcases List.mem_cons.mp hq with rfl | hq
        · exact hm q (by simp)
        rcases List.mem_cons.mp hq with rfl | hq
        · exact le_trans (hm best (by simp)) (not_lt.mp h)
        · exact hm q (List.mem_cons_of_mem _ hq)

/-- C196. When the factor is at both sides of the limit at two neighbours of the scan, the gap is in the first such pair: at every length scanned before
the factor is strictly on one side of it. In that pair it is one whose factor is within a thousandth, or the middle of an interval in which the factor
crosses the limit, no wider than a tenth of the smallest gap or the pair halved a hundred times. -/
theorem gap_in_first_crossing (factor : K → K) (limit minimum : K) (points : List K) (hs : (minimum :: points).Pairwise (· ≤ ·)) {a b : K × K}
    (h : crossing limit ((minimum :: points).map fun g : K => (g, factor g)) = some (a, b)) :
    ∃ pre post, minimum :: points = pre ++ a.1 :: b.1 :: post ∧ Crosses factor limit a.1 b.1 ∧
      (∀ g ∈ pre, 0 < (factor g - limit) * (factor a.1 - limit)) ∧
      Near factor limit (max (minimum / 10) ((b.1 - a.1) / 2 ^ 100)) a.1 b.1 (gapOfFactor factor limit minimum points) := by
  obtain ⟨pre, post, e, h1, h2⟩ := crossing_some limit _ h
  rw [List.map_eq_append_iff] at e
  obtain ⟨l1, l2, e1, e2, e3⟩ := e
  rw [List.map_eq_cons_iff] at e3
  obtain ⟨a', l3, rfl, rfl, e4⟩ := e3
  rw [List.map_eq_cons_iff] at e4
  obtain ⟨b', l4, rfl, rfl, e5⟩ := e4
  have hab : a' ≤ b' := by
    rw [e1, List.pairwise_append] at hs
    exact (List.pairwise_cons.mp hs.2.1).1 b' (by simp)
  refine ⟨l1, l4, e1, h1, ?_, ?_⟩
  · intro g hg
    exact h2 (g, factor g) (by rw [← e2]; exact List.mem_map_of_mem hg)
  · unfold gapOfFactor
    simp only [h]
    exact bisect_near factor limit (minimum / 10) 100 a' b' hab h1

/-- C196. When it is not, the gap is the length scanned whose factor is the closest to the limit. -/
theorem gap_closest (factor : K → K) (limit minimum : K) (points : List K)
    (h : crossing limit ((minimum :: points).map fun g : K => (g, factor g)) = none) :
    gapOfFactor factor limit minimum points ∈ minimum :: points ∧
      ∀ g ∈ minimum :: points, abs (factor (gapOfFactor factor limit minimum points) - limit) ≤ abs (factor g - limit) := by
  have e : gapOfFactor factor limit minimum points =
      closest limit (minimum, factor minimum) ((minimum :: points).map fun g : K => (g, factor g)) := by
    unfold gapOfFactor; simp only [h]
  obtain ⟨p, hp, e', hm⟩ := closest_spec limit ((minimum :: points).map fun g : K => (g, factor g)) (minimum, factor minimum)
  have hp' : ∃ g ∈ minimum :: points, p = (g, factor g) := by
    rcases List.mem_cons.mp hp with rfl | hp
    · exact ⟨minimum, by simp, rfl⟩
    · obtain ⟨g, hg, rfl⟩ := List.mem_map.mp hp
      exact ⟨g, hg, rfl⟩
  obtain ⟨g, hg, rfl⟩ := hp'
  rw [e, e']
  exact ⟨hg, fun g' hg' => hm (g', factor g') (List.mem_cons_of_mem _ (List.mem_map_of_mem hg'))⟩

/-- C196. The gap is one of the physical range, whatever the factor. -/
theorem gap_in_range (factor : K → K) (limit minimum height : K) (points : List K) (hs : (minimum :: points).Pairwise (· ≤ ·))
    (hh : ∀ g ∈ points, g ≤ height) (hm : minimum ≤ height) :
    minimum ≤ gapOfFactor factor limit minimum points ∧ gapOfFactor factor limit minimum points ≤ height := by
  have hlow : ∀ g ∈ minimum :: points, minimum ≤ g := by
    intro g hg
    rcases List.mem_cons.mp hg with rfl | hg
    · exact le_refl _
    · exact (List.pairwise_cons.mp hs).1 g hg
  have hup : ∀ g ∈ minimum :: points, g ≤ height := by
    intro g hg
    rcases List.mem_cons.mp hg with rfl | hg
    · exact hm
    · exact hh g hg
  cases hc : crossing limit ((minimum :: points).map fun g : K => (g, factor g)) with
  | none =>
    have := (gap_closest factor limit minimum points hc).1
    exact ⟨hlow _ this, hup _ this⟩
  | some ab =>
    obtain ⟨a, b⟩ := ab
    obtain ⟨pre, post, e, _, _, n1, n2, _⟩ := gap_in_first_crossing factor limit minimum points hs hc
    have ha : a.1 ∈ minimum :: points := by rw [e]; simp
    have hb : b.1 ∈ minimum :: points := by rw [e]; simp
    exact ⟨le_trans (hlow _ ha) n1, le_trans n2 (hup _ hb)⟩

/-- The factor of a gap in units of the smallest: it goes through 1.2 on its way up at 20 and comes down again; the first is found. -/
example : gapOfFactor (fun g : ℚ => if g ≤ 50 then 1 + g / 100 else 3 / 2 - (g - 50) / 100) (6 / 5) 1 [10, 30, 60, 100] = 20 := by decide +kernel

/-- C196. A core whose gaps are all residual has the same factor at every length, and then the answer is the smallest one. -/
theorem constant_factor (c limit minimum : K) (hc : c ≠ limit) (points : List K) : gapOfFactor (fun _ => c) limit minimum points = minimum := by
  have hne : c - limit ≠ 0 := sub_ne_zero.mpr hc
  have hnone : ∀ l : List K, crossing limit (l.map fun g : K => (g, c)) = none := by
    intro l
    induction l with
    | nil => rfl
    | cons a l ih =>
      cases l with
      | nil => rfl
      | cons b l =>
        simp only [List.map_cons, crossing] at ih ⊢
        rw [if_pos (by exact mul_self_pos.mpr hne), ih]
  have hclose : ∀ (l : List K), closest limit (minimum, c) (l.map fun g : K => (g, c)) = minimum := by
    intro l
    induction l with
    | nil => rfl
    | cons a l ih => simp only [List.map_cons, closest, lt_irrefl, if_false]; exact ih
  unfold gapOfFactor
  simp only [hnone (minimum :: points)]
  exact hclose (minimum :: points)

/-! ## C197: the filter by fringing factor -/

/-- What the filter must answer for a core, whatever it was asked before. -/
def fresh (maximum : Core K → Outcome K) (c : Core K) : Outcome Bool :=
  if c.toroid then .value true
  else match c.gaps with
    | [] => .value true
    | gap :: _ => (maximum c).bind fun m => .value (decide (gap.2 ≤ m))

theorem fringing_step (maximum : Core K → Outcome K) (cache : Cache K) (c : Core K)
    (hc : ∀ m : K, cache.lookup (keyOf c) = some m → c.toroid = false → c.gaps ≠ [] → maximum c = .value m) :
    (∃ b cache', fringing maximum cache c = .value (b, cache') ∧ fresh maximum c = .value b ∧
      (cache' = cache ∨ ∃ m : K, maximum c = .value m ∧ c.toroid = false ∧ c.gaps ≠ [] ∧ cache' = (keyOf c, m) :: cache)) ∨
    (fringing maximum cache c = .throws ∧ fresh maximum c = .throws) ∨ (fringing maximum cache c = .undefined ∧ fresh maximum c = .undefined) := by
  unfold fringing fresh
  cases ht : c.toroid with
  | true => exact .inl ⟨true, cache, by simp, by simp, .inl rfl⟩
  | false =>
    simp only [Bool.false_eq_true, if_false]
    cases hg : c.gaps with
    | nil => exact .inl ⟨true, cache, by simp, by simp, .inl rfl⟩
    | cons gap rest =>
      simp only
      by_cases hs : c.shape = ""
      · simp only [hs, if_true]
        cases hm : maximum c with
        | value m => exact .inl ⟨_, _, rfl, rfl, .inl rfl⟩
        | throws => exact .inr (.inl ⟨rfl, rfl⟩)
        | undefined => exact .inr (.inr ⟨rfl, rfl⟩)
      · simp only [hs, if_false]
        cases hl : cache.lookup (keyOf c) with
        | some m =>
          have := hc m hl ht (by rw [hg]; simp)
          simp only [this, Outcome.bind]
          exact .inl ⟨_, _, rfl, rfl, .inl rfl⟩
        | none =>
          simp only
          cases hm : maximum c with
          | value m => exact .inl ⟨_, _, rfl, rfl, .inr ⟨m, rfl, by simp, by simp, rfl⟩⟩
          | throws => exact .inr (.inl ⟨rfl, rfl⟩)
          | undefined => exact .inr (.inr ⟨rfl, rfl⟩)

theorem fringingRun_fresh (maximum : Core K → Outcome K)
    (hkey : ∀ c d : Core K, keyOf c = keyOf d → c.toroid = false → d.toroid = false → c.gaps ≠ [] → maximum c = maximum d) :
    ∀ (cs : List (Core K)) (cache : Cache K), (∀ c : Core K, ∀ m : K, cache.lookup (keyOf c) = some m → c.toroid = false → c.gaps ≠ [] → maximum c = .value m) →
      fringingRun maximum cache cs = cs.map (fresh maximum)
  | [], _, _ => rfl
  | c :: cs, cache, hc => by
    simp only [fringingRun, List.map_cons]
    rcases fringing_step maximum cache c (hc c) with ⟨b, cache', h1, h2, h3⟩ | ⟨h1, h2⟩ | ⟨h1, h2⟩
    · rw [h1, h2]
      simp only
      congr 1
      apply fringingRun_fresh maximum hkey cs cache'
      rcases h3 with rfl | ⟨m, hm, ht, hg, rfl⟩
      · exact hc
      · intro d m' hl hd hgd
        rw [List.lookup_cons] at hl
        by_cases hk : keyOf d = keyOf c
        · rw [hk, beq_self_eq_true] at hl
          simp only [Option.some.injEq] at hl
          subst hl
          rw [hkey d c hk hd ht hgd, hm]
        · rw [beq_false_of_ne hk] at hl
          exact hc d m' hl hd hgd
    · rw [h1, h2]; simp only; rw [fringingRun_fresh maximum hkey cs cache hc]
    · rw [h1, h2]; simp only; rw [fringingRun_fresh maximum hkey cs cache hc]

/-- C197. If the cores with the same shape, stacks and number of gaps have the same maximum gap, what was asked before makes no difference. What is missing
for the claim: that they have, which is not so when the gaps of some are residual or spacers. -/
theorem fringing_fresh_partial (maximum : Core K → Outcome K)
    (hkey : ∀ c d : Core K, c.shape = d.shape → c.stacked = d.stacked → c.gaps.length = d.gaps.length → c.toroid = false → d.toroid = false →
      c.gaps ≠ [] → maximum c = maximum d) (cs : List (Core K)) :
    fringingRun maximum [] cs = cs.map (fresh maximum) := by
  refine fringingRun_fresh maximum (fun c d h => ?_) cs [] (by simp)
  simp only [keyOf, Prod.mk.injEq] at h
  exact hkey c d h.1 h.2.1 h.2.2

/-- The maximum gap as the code searches it, in units of the residual gap: setting the length of a gap does nothing to a residual one
(src/constructive_models/Core.cpp:746-753), so the factor of a core with only those is the same at every length. -/
def searched (c : Core ℚ) : Outcome ℚ :=
  .value (gapOfFactor (fun g => if c.gaps.all (·.1) then 1001 / 1000 else 1 + g / 100) (6 / 5) 1 [10, 30, 60, 100])

/-- C197, the claim is false of the code: a core with a gap of fifteen times the residual one is kept, but not if the same core without it was asked for
before: that one has as many gaps, all of them residual, so they share what is remembered, and its maximum is the residual gap. -/
theorem fringing_history_counterexample :
    fringingRun searched [] [⟨false, "E 42/21/15", 1, [(false, 15), (true, 1), (true, 1)]⟩] = [.value true] ∧
    fringingRun searched [] [⟨false, "E 42/21/15", 1, [(true, 1), (true, 1), (true, 1)]⟩,
      ⟨false, "E 42/21/15", 1, [(false, 15), (true, 1), (true, 1)]⟩] = [.value true, .value false] := by decide +kernel

/-! ## C198: the area product -/

/-- The largest area product that the operating points require, each with its flux density. -/
def IsRequired (measure : ℕ → Option K) (points : List (Point K)) (x : K) : Prop :=
  0 ≤ x ∧ (∀ i : ℕ, ∀ p : Point K, points[i]? = some p → ∃ b : K, measure i = some b ∧ p.power / (p.utilization * b) ≤ x) ∧
    (x = 0 ∨ ∃ i : ℕ, ∃ p : Point K, points[i]? = some p ∧ ∃ b : K, measure i = some b ∧ x = p.power / (p.utilization * b))

theorem requiredLoop_spec (material : String) (measure : ℕ → Option K) : ∀ (points : List (Point K)) (i : ℕ) (most x : K) (memory memory' : Fluxes K),
    (∀ b : K, memory.lookup material = some b → ∀ j : ℕ, j < points.length → measure (i + j) = some b) →
    (∀ j k : ℕ, j < points.length → k < points.length → measure (i + j) = measure (i + k)) →
    requiredLoop material measure i points most memory = (.required x, memory') →
    most ≤ x ∧ (∀ j : ℕ, ∀ p : Point K, points[j]? = some p → ∃ b : K, measure (i + j) = some b ∧ p.power / (p.utilization * b) ≤ x) ∧
      (x = most ∨ ∃ j : ℕ, ∃ p : Point K, points[j]? = some p ∧ ∃ b : K, measure (i + j) = some b ∧ x = p.power / (p.utilization * b))
  | [], i, most, x, memory, memory', _, _, h => by
    simp only [requiredLoop, Prod.mk.injEq, Ended.required.injEq] at h
    exact ⟨h.1.le, by simp, .inl h.1.symm⟩
  | p :: ps, i, most, x, memory, memory', hmem, hsame, h => by
    simp only [requiredLoop] at h
    cases hf : fluxAt material (measure i) memory with
    | none => rw [hf] at h; simp at h
    | some v =>
      obtain ⟨b, mem1⟩ := v
      rw [hf] at h
      simp only at h
      by_cases hb0 : b = 0
      · rw [if_pos hb0] at h; simp at h
      rw [if_neg hb0] at h
      by_cases hr0 : p.power / (p.utilization * b) = 0
      · rw [if_pos hr0] at h; simp at h
      rw [if_neg hr0] at h
      have hb : measure i = some b ∧ mem1.lookup material = some b := by
        unfold fluxAt at hf
        cases hl : memory.lookup material with
        | some b' =>
          rw [hl] at hf
          simp only [Option.some.injEq, Prod.mk.injEq] at hf
          obtain ⟨rfl, rfl⟩ := hf
          exact ⟨by simpa using hmem b' hl 0 (by simp), hl⟩
        | none =>
          rw [hl] at hf
          cases hm : measure i with
          | none => rw [hm] at hf; simp at hf
          | some b' =>
            rw [hm] at hf
            simp only [Option.map_some, Option.some.injEq, Prod.mk.injEq] at hf
            obtain ⟨rfl, rfl⟩ := hf
            exact ⟨rfl, by simp⟩
      obtain ⟨i1, i2, i3⟩ := requiredLoop_spec material measure ps (i + 1) _ x mem1 memory' (by
          intro b' hb' j hj
          rw [hb.2] at hb'
          simp only [Option.some.injEq] at hb'
          subst hb'
          have := hsame (1 + j) 0 (by simp; omega) (by simp)
          rw [Nat.add_zero, ← Nat.add_assoc] at this
          rw [this]; exact hb.1) (by
          intro j k hj hk
          have := hsame (1 + j) (1 + k) (by simp; omega) (by simp; omega)
          rwa [← Nat.add_assoc, ← Nat.add_assoc] at this) h
      refine ⟨le_trans (le_max_left _ _) i1, ?_, ?_⟩
      · intro j q hj
        cases j with
        | zero =>
          simp only [List.getElem?_cons_zero, Option.some.injEq] at hj
          subst hj
          exact ⟨b, by simpa using hb.1, le_trans (le_max_right _ _) i1⟩
        | succ j =>
          simp only [List.getElem?_cons_succ] at hj
          have := i2 j q hj
          rwa [show i + 1 + j = i + (j + 1) by omega] at this
      · rcases i3 with i3 | ⟨j, q, hj, r⟩
        · rcases max_choice most (p.power / (p.utilization * b)) with hm | hm
          · exact .inl (by rw [i3, hm])
          · exact .inr ⟨0, p, by simp, b, by simpa using hb.1, by rw [i3, hm]⟩
        · refine .inr ⟨j + 1, q, by simpa using hj, ?_⟩
          rwa [show i + 1 + j = i + (j + 1) by omega] at r

/-- C198. When a material has the same flux density at every operating point, and what is remembered of it is that, a core is kept only if its area
product is at least the threshold of what each operating point requires, and its score is the distance to the largest of them. What is missing for the
claim: operating points at different frequencies or temperatures, at which it is not the same. -/
theorem area_product_kept_partial (threshold area : K) (hth : 0 ≤ threshold) (material : String) (measure : ℕ → Option K) (points : List (Point K))
    (memory : Fluxes K)
    (hmem : ∀ b : K, memory.lookup material = some b → ∀ j : ℕ, j < points.length → measure j = some b)
    (hsame : ∀ j k : ℕ, j < points.length → k < points.length → measure j = measure k) {s : Score K} {memory' : Fluxes K}
    (h : areaProduct threshold area material measure points memory = (.value ⟨true, s⟩, memory')) :
    ∃ x : K, IsRequired measure points x ∧ x ≤ 1 ∧ x * threshold ≤ area ∧ s = .num (abs (area - x)) ∧
      ∀ i : ℕ, ∀ p : Point K, points[i]? = some p → ∃ b : K, measure i = some b ∧ p.power / (p.utilization * b) * threshold ≤ area := by
  unfold areaProduct at h
  generalize hl : requiredLoop material measure 0 points 0 memory = e at h
  obtain ⟨e, m⟩ := e
  cases e with
  | refused => simp [rejected] at h
  | threw => simp at h
  | required x =>
    simp only at h
    by_cases hx : x > 1
    · rw [if_pos hx] at h; simp at h
    rw [if_neg hx] at h
    simp only [Prod.mk.injEq, Outcome.value.injEq, Answer.mk.injEq, decide_eq_true_eq] at h
    obtain ⟨⟨h1, h2⟩, _⟩ := h
    obtain ⟨i1, i2, i3⟩ := requiredLoop_spec material measure points 0 0 x memory m (by simpa using hmem) (by simpa using hsame) hl
    simp only [Nat.zero_add] at i2 i3
    refine ⟨x, ⟨i1, i2, i3⟩, not_lt.mp hx, h1, h2.symm, ?_⟩
    intro i p hp
    obtain ⟨b, hb, hle⟩ := i2 i p hp
    exact ⟨b, hb, le_trans (mul_le_mul_of_nonneg_right hle hth) h1⟩

/-- A material of 0.2 T for two operating points, for a core that is enough for both. -/
example : areaProduct (9 / 10 : ℚ) (1 / 10) "N87" (fun _ => some (1 / 5)) [⟨1 / 100, 1 / 2⟩, ⟨1 / 200, 1 / 2⟩] [] =
    (.value ⟨true, .num 0⟩, [("N87", 1 / 5)]) := by decide +kernel

/-- C198, the claim is false of the code: a material of 0.2 T at the first operating point and of 0.05 T at the second, of a higher frequency. The second
requires four times as much as the core has, but the flux density of the first is used for both, and the core is kept. With the operating points in the
other order it is rejected. -/
theorem area_product_order_counterexample :
    (areaProduct (9 / 10 : ℚ) (1 / 10) "N87" (fun i => if i = 0 then some (1 / 5) else some (1 / 20)) [⟨1 / 100, 1 / 2⟩, ⟨1 / 100, 1 / 2⟩] []).1 =
      .value ⟨true, .num 0⟩ ∧
    (areaProduct (9 / 10 : ℚ) (1 / 10) "N87" (fun i => if i = 0 then some (1 / 20) else some (1 / 5)) [⟨1 / 100, 1 / 2⟩, ⟨1 / 100, 1 / 2⟩] []).1 =
      .value ⟨false, .num (3 / 10)⟩ ∧
    IsRequired (fun i : ℕ => if i = 0 then some (1 / 5 : ℚ) else some (1 / 20)) [⟨1 / 100, 1 / 2⟩, ⟨1 / 100, 1 / 2⟩] (4 / 10) := by
  refine ⟨by decide +kernel, by decide +kernel, by norm_num, ?_, ?_⟩
  · intro i p hp
    match i with
    | 0 => simp at hp; subst hp; exact ⟨1 / 5, by simp, by norm_num⟩
    | 1 => simp at hp; subst hp; exact ⟨1 / 20, by simp, by norm_num⟩
    | n + 2 => simp at hp
  · exact .inr ⟨1, ⟨1 / 100, 1 / 2⟩, by simp, 1 / 20, by simp, by norm_num⟩

end Verif.Filters.Memo
