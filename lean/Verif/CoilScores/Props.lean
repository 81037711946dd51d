import Verif.CoilScores.Model
import Verif.Scoring.Props

/-! # Properties of the scores of coils -/

set_option linter.unusedSimpArgs false
set_option linter.unusedVariables false
set_option linter.unusedSectionVars false

namespace Verif.CoilScores

open Verif.Scoring

variable {K : Type} [Field K] [LinearOrder K] [IsStrictOrderedRing K] {M : Type}

/-- Spec: a filter that is not logarithmic, with a weight that is not negative and a number for each coil. -/
structure Linear (ms : List M) (f : Filter M K) : Prop where
  plain : f.log = false
  weight : 0 ≤ f.weight
  finite : ∀ m ∈ ms, ∃ x, f.raw m = .fin x

/-- Spec: for the filter, the first coil is at least as good. -/
def NoWorse (f : Filter M K) (a b : M) : Prop :=
  ∃ x y, f.raw a = .fin x ∧ f.raw b = .fin y ∧ if f.invert then x ≤ y else y ≤ x

/-- Spec: for the filter, which counts, the first coil is better. -/
def Better (f : Filter M K) (a b : M) : Prop :=
  0 < f.weight ∧ ∃ x y, f.raw a = .fin x ∧ f.raw b = .fin y ∧ if f.invert then x < y else y < x

/-- The number of a score. -/
def value : Num K → K
  | .fin x => x
  | _ => 0

theorem allSome_map (l : List K) (g : K → K) : allSome (l.map fun v => some (g v)) = some (l.map g) := by
  induction l with
  | nil => rfl
  | cons x l ih => simp [allSome, ih]

theorem zipWith_map (ms : List M) (a b : M → K) :
    (ms.map a).zipWith (· + ·) (ms.map b) = ms.map fun m => a m + b m := by
  induction ms with
  | nil => rfl
  | cons m ms ih => simp [ih]

theorem one_filter (lg : K → K) (ms : List M) (f : Filter M K) (h : Linear ms f) :
    ∃ s : M → K, normalizeList lg f.weight f.invert f.log (ms.map f.raw) = some (ms.map fun m => some (s m)) ∧
      allSome (ms.map fun m => some (s m)) = some (ms.map s) ∧ (∀ m ∈ ms, 0 ≤ s m ∧ s m ≤ f.weight) ∧
      (∀ a ∈ ms, ∀ b ∈ ms, NoWorse f a b → s b ≤ s a) ∧ ∀ a ∈ ms, ∀ b ∈ ms, Better f a b → s b < s a := by
  obtain ⟨g, hg, good⟩ := normalize_linear lg f.weight h.weight f.invert (ms.map fun m => value (f.raw m))
  have hv : ∀ m ∈ ms, Num.fin (value (f.raw m)) = f.raw m := by
    intro m hm
    obtain ⟨x, hx⟩ := h.finite m hm
    rw [hx]; rfl
  have e : (ms.map fun m => value (f.raw m)).map Num.fin = ms.map f.raw := by
    rw [List.map_map]
    exact List.map_congr_left fun m hm => hv m hm
  rw [e] at hg
  refine ⟨fun m => g (value (f.raw m)), ?_, ?_, ?_, ?_, ?_⟩
  · rw [h.plain, hg, List.map_map]; rfl
  · have := allSome_map (ms.map fun m => value (f.raw m)) g
    simpa [List.map_map, Function.comp_def] using this
  · exact fun m hm => good.range _ (List.mem_map_of_mem hm)
  · rintro a ha b hb ⟨x, y, hx, hy, hxy⟩
    have ma := List.mem_map_of_mem (f := fun m => value (f.raw m)) ha
    have mb := List.mem_map_of_mem (f := fun m => value (f.raw m)) hb
    simp only [hx, hy, value] at ma mb ⊢
    cases hi : f.invert
    · rw [hi] at hxy
      simpa [hi] using good.mono y mb x ma (by simpa using hxy)
    · rw [hi] at hxy
      simpa [hi] using good.mono x ma y mb (by simpa using hxy)
  · rintro a ha b hb ⟨hw, x, y, hx, hy, hxy⟩
    have ma := List.mem_map_of_mem (f := fun m => value (f.raw m)) ha
    have mb := List.mem_map_of_mem (f := fun m => value (f.raw m)) hb
    simp only [hx, hy, value] at ma mb ⊢
    cases hi : f.invert
    · rw [hi] at hxy
      simpa [hi] using good.strict hw y mb x ma (by simpa using hxy)
    · rw [hi] at hxy
      simpa [hi] using good.strict hw x ma y mb (by simpa using hxy)

theorem totals_linear (lg : K → K) (ms : List M) (fs : List (Filter M K)) (h : ∀ f ∈ fs, Linear ms f) (t : M → K) :
    ∃ s : M → K, totals lg ms fs (ms.map t) = .sums (ms.map fun m => t m + s m) ∧
      (∀ m ∈ ms, 0 ≤ s m ∧ s m ≤ (fs.map fun f => f.weight).sum) ∧
      (∀ a ∈ ms, ∀ b ∈ ms, (∀ f ∈ fs, NoWorse f a b) → s b ≤ s a ∧ ((∃ f ∈ fs, Better f a b) → s b < s a)) := by
  induction fs generalizing t with
  | nil =>
    refine ⟨fun _ => 0, by simp [totals], by simp, ?_⟩
    intro a _ b _ _
    exact ⟨le_refl _, by rintro ⟨f, hf, _⟩; simp at hf⟩
  | cons f fs ih =>
    obtain ⟨s1, h1, h2, h3, h4, h5⟩ := one_filter lg ms f (h f (by simp))
    obtain ⟨s2, g1, g2, g3⟩ := ih (fun x hx => h x (by simp [hx])) (fun m => t m + s1 m)
    refine ⟨fun m => s1 m + s2 m, ?_, ?_, ?_⟩
    · simp only [totals, h1, h2, zipWith_map, g1, add_assoc]
    · intro m hm
      obtain ⟨a1, a2⟩ := h3 m hm
      obtain ⟨b1, b2⟩ := g2 m hm
      exact ⟨add_nonneg a1 b1, by simpa using add_le_add a2 b2⟩
    · intro a ha b hb hab
      have k1 := h4 a ha b hb (hab f (by simp))
      obtain ⟨k2, k3⟩ := g3 a ha b hb fun x hx => hab x (by simp [hx])
      refine ⟨add_le_add k1 k2, ?_⟩
      rintro ⟨x, hx, hbx⟩
      rcases List.mem_cons.1 hx with rfl | hx
      · exact add_lt_add_of_lt_of_le (h5 a ha b hb hbx) k2
      · exact add_lt_add_of_le_of_lt k1 (k3 ⟨x, hx, hbx⟩)

theorem flag_iff (fs : List (Filter M K)) (m : M) : flag fs m = true ↔ ∀ f ∈ fs, f.accepts m = true := by
  have key : ∀ (fs : List (Filter M K)) (b : Bool),
      fs.foldl (fun b f => if f.accepts m = false then false else b) b = true ↔ b = true ∧ ∀ f ∈ fs, f.accepts m = true := by
    intro fs
    induction fs with
    | nil => simp
    | cons f fs ih =>
      intro b
      rw [List.foldl_cons, ih]
      cases hf : f.accepts m <;> simp [hf]
  simpa [flag] using key fs true

/-- **C422.** Every coil comes out once, with the valid ones if all filters accept it and with the others if not, in the order
they came in; its score is between zero and the sum of the weights, a coil that is as good as another for every filter never
scores less, and more if it is better for one that counts. -/
theorem scores_fair (lg : K → K) (fs : List (Filter M K)) (ms : List M) (h : ∀ f ∈ fs, Linear ms f) :
    ∃ s : M → K, ∃ valid invalid : List M,
      scoreMagnetics lg fs ms = .scored (valid.map fun m => (m, s m)) (invalid.map fun m => (m, s m)) ∧
      valid.Sublist ms ∧ invalid.Sublist ms ∧ (valid ++ invalid).Perm ms ∧
      (∀ m ∈ valid, ∀ f ∈ fs, f.accepts m = true) ∧ (∀ m ∈ invalid, ∃ f ∈ fs, f.accepts m = false) ∧
      (∀ m ∈ ms, 0 ≤ s m ∧ s m ≤ (fs.map fun f => f.weight).sum) ∧
      ∀ a ∈ ms, ∀ b ∈ ms, (∀ f ∈ fs, NoWorse f a b) → s b ≤ s a ∧ ((∃ f ∈ fs, Better f a b) → s b < s a) := by
  obtain ⟨s, h1, h2, h3⟩ := totals_linear lg ms fs h fun _ => 0
  refine ⟨s, ms.filter (flag fs), ms.filter fun m => !flag fs m, ?_, List.filter_sublist, List.filter_sublist, ?_, ?_, ?_, h2, h3⟩
  · have hz : ms.zip (ms.map s) = ms.map fun m => (m, s m) := by
      clear h h1 h2 h3
      induction ms with
      | nil => rfl
      | cons m ms ih => simp [ih]
    simp only [scoreMagnetics, h1, zero_add, hz, List.filter_map, Function.comp_def]
  · exact List.filter_append_perm _ ms
  · intro m hm
    exact (flag_iff fs m).1 (List.mem_filter.1 hm).2
  · intro m hm
    have hf : ¬ flag fs m = true := by simpa using (List.mem_filter.1 hm).2
    rw [flag_iff] at hf
    push Not at hf
    obtain ⟨f, hf, hn⟩ := hf
    exact ⟨f, hf, by simpa using hn⟩

/-- **C422.** A score that is not a number, of any coil, even of one that is rejected, makes the scoring of all throw. -/
theorem one_nan_throws (lg : K → K) (before after : List (Filter M K)) (f : Filter M K) (ms : List M)
    (h : ∀ x ∈ before, Linear ms x) (m : M) (hm : m ∈ ms) (hn : f.raw m = .nan) :
    scoreMagnetics lg (before ++ f :: after) ms = .threw := by
  have key : ∀ (before : List (Filter M K)) (t : M → K), (∀ x ∈ before, Linear ms x) →
      totals lg ms (before ++ f :: after) (ms.map t) = .threw := by
    intro before
    induction before with
    | nil =>
      intro t _
      have : normalizeList lg f.weight f.invert f.log (ms.map f.raw) = none :=
        (normalize_throws_iff _ _ _ _ _).2 (List.mem_map.2 ⟨m, hm, hn⟩)
      simp [totals, this]
    | cons x xs ih =>
      intro t hx
      obtain ⟨s1, h1, h2, _⟩ := one_filter lg ms x (hx x (by simp))
      rw [List.cons_append]
      simp only [totals, h1, h2, zipWith_map]
      exact ih _ fun y hy => hx y (by simp [hy])
  simp only [scoreMagnetics, key before (fun _ => 0) h]

/-- Two filters: one prefers the second coil and the other, that counts a little less, the first. The third coil is rejected. -/
def flow : List (Filter (Fin 3) ℚ) :=
  [⟨fun m => m ≠ 2, fun m => .fin (if m = 0 then 0 else if m = 1 then 1 else 9), 1, false, false⟩,
   ⟨fun _ => true, fun m => .fin (if m = 0 then 1 else if m = 1 then 0 else 1 / 2), 9 / 10, false, false⟩]

/-- **C423.** A coil that is rejected decides which of the valid ones is the best: without it the second scores more than the first
and with it less, as it stretches the range of the first filter. -/
theorem rejected_decides :
    scoreMagnetics id flow [0, 1] = .scored [(0, 9 / 10), (1, 1)] [] ∧
    scoreMagnetics id flow [0, 1, 2] = .scored [(0, 9 / 10), (1, 1 / 9)] [(2, 29 / 20)] := ⟨by decide +kernel, by decide +kernel⟩

/-- **C423 (partial).** With one filter the order of the valid coils is the same whatever other coils there are. What is missing is
more filters: `rejected_decides`. -/
theorem one_filter_order_partial (lg : K → K) (f : Filter M K) (ms ms' : List M) (h : Linear ms f) (h' : Linear ms' f)
    (hw : 0 < f.weight) (a b : M) (ha : a ∈ ms) (hb : b ∈ ms) (ha' : a ∈ ms') (hb' : b ∈ ms') :
    ∃ s s' : M → K, totals lg ms [f] (ms.map fun _ => 0) = .sums (ms.map s) ∧
      totals lg ms' [f] (ms'.map fun _ => 0) = .sums (ms'.map s') ∧ (s a ≤ s b ↔ s' a ≤ s' b) := by
  obtain ⟨s, h1, h2, _, h4, h5⟩ := one_filter lg ms f h
  obtain ⟨s', g1, g2, _, g4, g5⟩ := one_filter lg ms' f h'
  refine ⟨s, s', ?_, ?_, ?_⟩
  · simp only [totals, h1, h2, zipWith_map, zero_add]
  · simp only [totals, g1, g2, zipWith_map, zero_add]
  · obtain ⟨x, hx⟩ := h.finite a ha
    obtain ⟨y, hy⟩ := h.finite b hb
    have cases : NoWorse f b a ∨ Better f a b := by
      cases hi : f.invert
      · rcases le_or_gt x y with hxy | hxy
        · exact Or.inl ⟨y, x, hy, hx, by simpa [hi] using hxy⟩
        · exact Or.inr ⟨hw, x, y, hx, hy, by simpa [hi] using hxy⟩
      · rcases le_or_gt y x with hxy | hxy
        · exact Or.inl ⟨y, x, hy, hx, by simpa [hi] using hxy⟩
        · exact Or.inr ⟨hw, x, y, hx, hy, by simpa [hi] using hxy⟩
    rcases cases with c | c
    · exact ⟨fun _ => g4 b hb' a ha' c, fun _ => h4 b hb a ha c⟩
    · exact ⟨fun hc => absurd (h5 a ha b hb c) (not_lt.2 hc), fun hc => absurd (g5 a ha' b hb' c) (not_lt.2 hc)⟩

example : ∀ f ∈ flow, Linear [0, 1, 2] f := by
  intro f hf
  rcases List.mem_cons.1 hf with rfl | hf
  · exact ⟨rfl, by norm_num, fun m _ => ⟨_, rfl⟩⟩
  · rcases List.mem_cons.1 hf with rfl | hf
    · exact ⟨rfl, by norm_num, fun m _ => ⟨_, rfl⟩⟩
    · simp at hf

end Verif.CoilScores
