import Verif.Scoring.Lemmas
import Mathlib.Analysis.SpecialFunctions.Log.Base
import Mathlib.Data.Rat.Floor

/-! # Properties C11 and C12: score normalisation -/

namespace Verif.Scoring

set_option linter.unusedSectionVars false
set_option linter.unusedSimpArgs false

variable {K : Type} [Field K] [LinearOrder K] [IsStrictOrderedRing K]

/-! ## C11 -/

/-- Specification: `f` gives every value of `vs` a score between 0 and `w`, never a worse one to a better
value (larger is better unless `invert`), a strictly better one to a strictly better value when the weight
is not zero, `w` to the best and 0 to the worst when not all values are equal, and `w` to all when all are
equal. -/
structure GoodScore (w : K) (invert : Bool) (vs : List K) (f : K → K) : Prop where
  range : ∀ v ∈ vs, 0 ≤ f v ∧ f v ≤ w
  mono : ∀ u ∈ vs, ∀ v ∈ vs, u ≤ v → if invert then f v ≤ f u else f u ≤ f v
  strict : 0 < w → ∀ u ∈ vs, ∀ v ∈ vs, u < v → if invert then f v < f u else f u < f v
  largest : (∃ u ∈ vs, ∃ v ∈ vs, u ≠ v) → ∀ v ∈ vs, (∀ u ∈ vs, u ≤ v) → f v = if invert then 0 else w
  smallest : (∃ u ∈ vs, ∃ v ∈ vs, u ≠ v) → ∀ v ∈ vs, (∀ u ∈ vs, v ≤ u) → f v = if invert then w else 0
  tie : (∀ u ∈ vs, ∀ v ∈ vs, u = v) → ∀ v ∈ vs, f v = w

/-- Scores through a monotone change of scale `g`. -/
theorem goodScore_affine (w : K) (hw : 0 ≤ w) (invert : Bool) (vs : List K) (mn mx : K) (hmn : mn ∈ vs)
    (hmx : mx ∈ vs) (hb : ∀ v ∈ vs, mn ≤ v ∧ v ≤ mx) (g : K → K)
    (hg : ∀ u ∈ vs, ∀ v ∈ vs, u < v → g u < g v) :
    GoodScore w invert vs (fun v => if mx ≠ mn then affine w invert (g mn) (g mx) (g v) else w) := by
  have hg' : ∀ u ∈ vs, ∀ v ∈ vs, u ≤ v → g u ≤ g v := by
    intro u hu v hv h
    rcases eq_or_lt_of_le h with rfl | h
    · exact le_refl _
    · exact (hg u hu v hv h).le
  by_cases hne : mx ≠ mn
  · have hlt : g mn < g mx := hg mn hmn mx hmx (lt_of_le_of_ne (hb mx hmx).1 hne.symm)
    simp only [if_pos hne]
    refine ⟨?_, ?_, ?_, ?_, ?_, ?_⟩
    · intro v hv
      exact affine_bounds hw invert hlt (hg' _ hmn _ hv (hb v hv).1) (hg' _ hv _ hmx (hb v hv).2)
    · intro u hu v hv h; exact affine_mono hw invert hlt (hg' u hu v hv h)
    · intro hw' u hu v hv h; exact affine_strict hw' invert hlt (hg u hu v hv h)
    · intro _ v hv h
      have : v = mx := le_antisymm (hb v hv).2 (h mx hmx)
      rw [this, affine_high invert hlt]
    · intro _ v hv h
      have : v = mn := le_antisymm (h mn hmn) (hb v hv).1
      rw [this, affine_low invert]
    · intro h v hv; exact absurd (h mx hmx mn hmn) hne
  · simp only [if_neg hne]
    have heq : mx = mn := not_not.mp hne
    have all : ∀ u ∈ vs, ∀ v ∈ vs, u = v := by
      intro u hu v hv
      have h1 := hb u hu; have h2 := hb v hv
      rw [heq] at h1 h2
      exact (le_antisymm h1.2 h1.1).trans (le_antisymm h2.1 h2.2)
    refine ⟨fun v _ => ⟨hw, le_refl _⟩, ?_, ?_, ?_, ?_, fun _ _ _ => rfl⟩
    · intro u _ v _ _; split <;> exact le_refl _
    · intro _ u hu v hv h; exact absurd (all u hu v hv) h.ne
    · rintro ⟨u, hu, v, hv, hn⟩; exact absurd (all u hu v hv) hn
    · rintro ⟨u, hu, v, hv, hn⟩; exact absurd (all u hu v hv) hn

/-- **C11** (linear mode): for every list of raw values, one score per value in the same order, with all the
properties of `GoodScore`. -/
theorem normalize_linear (lg : K → K) (w : K) (hw : 0 ≤ w) (invert : Bool) (vs : List K) :
    ∃ f, normalizeList lg w invert false (vs.map Num.fin) = some (vs.map (fun v => some (f v))) ∧
      GoodScore w invert vs f := by
  cases vs with
  | nil => exact ⟨fun _ => 0, rfl, by constructor <;> simp⟩
  | cons x l =>
    obtain ⟨mn, mx, h1, h2, h3, h4, h5⟩ := extremes x l
    refine ⟨_, ?_, goodScore_affine w hw invert (x :: l) mn mx h3 h4 h5 id (fun u _ v _ h => h)⟩
    unfold normalizeList
    simp only [List.map_cons, h1, h2]
    have hn : ((Num.fin x :: l.map Num.fin).any fun v => decide (v = Num.nan)) = false := by
      simp
    rw [hn]
    simp only [Bool.false_eq_true, if_false, Option.some.injEq, List.map_cons, List.map_map]
    have key : ∀ y, score lg w invert false (clampZero false mn) mx (clampZero false y) =
        some (if mx ≠ mn then affine w invert (id mn) (id mx) (id y) else w) := by
      intro y
      simp only [score, clampZero, Bool.false_eq_true, false_and, if_false, affine, id]
      split <;> [(cases invert <;> simp); rfl]
    refine List.cons_eq_cons.mpr ⟨key x, ?_⟩
    exact List.map_congr_left (fun y _ => key y)

/-- Specification of the raw values for which the logarithmic mode is meaningful: zero or at least the clamp
`1e-10`, and not all zero. -/
def LogRange (vs : List K) : Prop := (∀ v ∈ vs, v = 0 ∨ floor10 ≤ v) ∧ ∃ v ∈ vs, v ≠ 0

/-- **C11** (logarithmic mode), partial: for raw values that are zero or at least `1e-10`, not all zero, the
scores are those of the values with zero replaced by `1e-10`: one per value in the same order, with all the
properties of `GoodScore` for the replaced values. What is missing: positive values below `1e-10`
(`log_out_of_range`) and the all-zero list. -/
theorem normalize_log_partial (lg : K → K) (hlg : ∀ u v, 0 < u → u < v → lg u < lg v) (w : K) (hw : 0 ≤ w)
    (invert : Bool) (vs : List K) (hr : LogRange vs) :
    ∃ f, normalizeList lg w invert true (vs.map Num.fin) =
        some (vs.map (fun v => some (f (if v = 0 then floor10 else v)))) ∧
      GoodScore w invert (vs.map (fun v => if v = 0 then floor10 else v)) f := by
  cases vs with
  | nil => obtain ⟨_, v, hv, _⟩ := hr; simp at hv
  | cons x l =>
    obtain ⟨mn, mx, h1, h2, h3, h4, h5⟩ := extremes x l
    set eff : K → K := fun v => if v = 0 then floor10 else v with heff
    have hfp := floor10_pos (K := K)
    have effpos : ∀ v ∈ x :: l, floor10 ≤ eff v := by
      intro v hv
      simp only [heff]; split
      · exact le_refl _
      · exact (hr.1 v hv).resolve_left ‹_›
    have effmono : ∀ u ∈ x :: l, ∀ v ∈ x :: l, u ≤ v → eff u ≤ eff v := by
      intro u hu v hv h
      by_cases hu0 : u = 0
      · have : eff u = floor10 := by simp [heff, hu0]
        rw [this]; exact effpos v hv
      · have h1 : eff u = u := by simp [heff, hu0]
        have hup := (hr.1 u hu).resolve_left hu0
        have hv0 : v ≠ 0 := by intro h0; rw [h0] at h; linarith
        have h2 : eff v = v := by simp [heff, hv0]
        rw [h1, h2]; exact h
    have hmxpos : mx ≠ 0 := by
      obtain ⟨v, hv, hv0⟩ := hr.2
      have := (hr.1 v hv).resolve_left hv0
      have := (h5 v hv).2
      intro h0; rw [h0] at this; linarith
    have heffmx : eff mx = mx := by simp [heff, hmxpos]
    refine ⟨_, ?_, goodScore_affine w hw invert ((x :: l).map eff) (eff mn) (eff mx)
      (List.mem_map.mpr ⟨mn, h3, rfl⟩) (List.mem_map.mpr ⟨mx, h4, rfl⟩) ?_ lg ?_⟩
    · unfold normalizeList
      simp only [List.map_cons, h1, h2]
      have hn : ((Num.fin x :: l.map Num.fin).any fun v => decide (v = Num.nan)) = false := by simp
      rw [hn]
      simp only [Bool.false_eq_true, if_false, Option.some.injEq, List.map_cons, List.map_map]
      have key : ∀ y ∈ x :: l, score lg w invert true (clampZero true mn) mx (clampZero true y) =
          some (if eff mx ≠ eff mn then affine w invert (lg (eff mn)) (lg (eff mx)) (lg (eff y)) else w) := by
        intro y hy
        have c : ∀ z, clampZero true z = eff z := by intro z; simp [clampZero, heff]
        rw [c, c, heffmx]
        unfold score
        have p1 : 0 < eff y := lt_of_lt_of_le hfp (effpos y hy)
        have p2 : 0 < eff mn := lt_of_lt_of_le hfp (effpos mn h3)
        have p3 : 0 < mx := by rw [← heffmx]; exact lt_of_lt_of_le hfp (effpos mx h4)
        split
        · simp only [if_true, log10, p1, p2, p3, affine]
          cases invert <;> simp
        · rfl
      exact List.cons_eq_cons.mpr ⟨key x (by simp), List.map_congr_left (fun y hy => key y (by simp [hy]))⟩
    · intro v hv
      obtain ⟨u, hu, rfl⟩ := List.mem_map.mp hv
      exact ⟨effmono _ h3 _ hu (h5 u hu).1, effmono _ hu _ h4 (h5 u hu).2⟩
    · intro u hu v hv h
      obtain ⟨u', hu', rfl⟩ := List.mem_map.mp hu
      exact hlg _ _ (lt_of_lt_of_le hfp (effpos u' hu')) h

/-- **C11**: a NaN raw value is always refused, wherever it is, and nothing else is. -/
theorem normalize_throws_iff (lg : K → K) (w : K) (invert log : Bool) (vs : List (Num K)) :
    normalizeList lg w invert log vs = none ↔ Num.nan ∈ vs := by
  cases vs with
  | nil => simp [normalizeList]
  | cons x l =>
    unfold normalizeList
    simp only
    by_cases h : Num.nan ∈ x :: l
    · have : ((x :: l).any fun v => decide (v = Num.nan)) = true := by
        rw [List.any_eq_true]; exact ⟨_, h, by simp⟩
      simp [this, h]
    · have : ((x :: l).any fun v => decide (v = Num.nan)) = false := by
        rw [Bool.eq_false_iff]; intro ha
        obtain ⟨v, hv, hd⟩ := List.any_eq_true.mp ha
        simp at hd; rw [hd] at hv; exact h hv
      simp only [this, Bool.false_eq_true, if_false, reduceCtorEq, false_iff]; exact h

/-- **C11**: the map form gives every name the score the list form gives its value. -/
theorem normalize_map {N : Type} (lg : K → K) (w : K) (invert log : Bool) (m : SMap N (Num K)) :
    normalizeMap lg w invert log m =
      (normalizeList lg w invert log (m.map Prod.snd)).map (fun ss => (m.map Prod.fst).zip ss) := by
  cases m with
  | nil => rfl
  | cons x l =>
    unfold normalizeMap normalizeList
    simp only [List.map_cons]
    have : ((x.2 :: l.map Prod.snd).any fun v => decide (v = Num.nan)) =
        ((x :: l).any fun v => decide (v.2 = Num.nan)) := by
      simp [List.any_map, Function.comp_def]
    rw [this]
    split
    · rfl
    · simp only [Option.map_some, Option.some.injEq, List.map_cons, List.zip_cons_cons, List.map_map]
      refine List.cons_eq_cons.mpr ⟨rfl, ?_⟩
      rw [List.zip_map']; rfl

/-- **C11**: adding the scores keeps the candidates and their order, and is defined exactly when there are
enough scores. -/
theorem addScores_spec {I : Type} (ms : List (I × K)) : ∀ ss : List K,
    (addScores ms ss = none ↔ ss.length < ms.length) ∧
    ∀ r, addScores ms ss = some r → r = (ms.zip ss).map (fun p => (p.1.1, p.1.2 + p.2)) ∧
      r.map Prod.fst = ms.map Prod.fst := by
  induction ms with
  | nil => intro ss; simp [addScores]
  | cons m ms ih =>
    intro ss
    cases ss with
    | nil => simp [addScores]
    | cons s ss =>
      obtain ⟨h1, h2⟩ := ih ss
      simp only [addScores, Option.map_eq_none_iff, h1, List.length_cons, Nat.add_lt_add_iff_right, true_and]
      intro r hr
      obtain ⟨r', hr', rfl⟩ := Option.map_eq_some_iff.mp hr
      obtain ⟨e1, e2⟩ := h2 r' hr'
      constructor
      · simp [e1]
      · simp [e2]

example : normalizeList (fun x : ℚ => x) 2 true false [.fin 1, .fin 3, .fin 2] = some [some 2, some 0, some 1] := by
  decide +kernel

example : LogRange ([0, 1/1000, 5] : List ℚ) := by
  refine ⟨?_, 5, by simp, by norm_num⟩
  intro v hv
  simp at hv
  rcases hv with rfl | rfl | rfl
  · exact Or.inl rfl
  · right; norm_num [floor10]
  · right; norm_num [floor10]

/-- The real logarithm satisfies the hypothesis about `lg`. -/
theorem logb_strict : ∀ u v : ℝ, 0 < u → u < v → Real.logb 10 u < Real.logb 10 v :=
  fun _ _ hu huv => Real.logb_lt_logb (by norm_num) hu huv

/-- Disagreement with **C11** in logarithmic mode: next to an exact zero, a positive raw value below `1e-10`
gets a negative score, although it is not the worst. -/
theorem log_out_of_range :
    ∃ s : ℝ, normalizeList (Real.logb 10) 1 false true [.fin 0, .fin ((10 : ℝ) ^ (-11 : ℤ)), .fin 1] =
      some [some 0, some s, some 1] ∧ s < 0 := by
  have l11 : Real.logb 10 ((10 : ℝ) ^ (-11 : ℤ)) = -11 := by
    rw [← Real.rpow_intCast, Real.logb_rpow (by norm_num) (by norm_num)]; norm_num
  have l10 : Real.logb 10 (floor10 : ℝ) = -10 := by
    have : (floor10 : ℝ) = (10 : ℝ) ^ (-10 : ℤ) := by norm_num [floor10]
    rw [this, ← Real.rpow_intCast, Real.logb_rpow (by norm_num) (by norm_num)]; norm_num
  have p11 : (0 : ℝ) < (10 : ℝ) ^ (-11 : ℤ) := by positivity
  have q11 : (10 : ℝ) ^ (-11 : ℤ) < 1 := by norm_num
  have n11 : ((10 : ℝ) ^ (-11 : ℤ)) ≠ 0 := p11.ne'
  have nf : (1 : ℝ) ≠ floor10 := by norm_num [floor10]
  refine ⟨-1/10, ?_, by norm_num⟩
  generalize ht : (10 : ℝ) ^ (-11 : ℤ) = t at *
  have e1 : maxElement (Num.fin (0:ℝ)) [.fin t, .fin 1] = .fin 1 := by
    simp [maxElement, Num.ltB, p11, q11]
  have e2 : minElement (Num.fin (0:ℝ)) [.fin t, .fin 1] = .fin 0 := by
    simp [minElement, Num.ltB, not_lt.mpr p11.le]
  unfold normalizeList
  simp only [e1, e2]
  simp [clampZero, score, n11, nf, log10, floor10_pos, p11, l11, l10]
  norm_num

/-! ## C12 -/

/-- The scores actually used: NaN and infinite ones replaced by the maximum. -/
def used (mx : K) (ss : List (Num K)) : List K := ss.map (project mx)

/-- Adding contributions succeeds when every used score has one and there are enough scores. -/
theorem addContributions_ok {I : Type} (f : Num K → Option K) (g : Num K → K) (ms : List (I × K)) :
    ∀ ss : List (Num K), (∀ s ∈ ss, f s = some (g s)) → ms.length ≤ ss.length →
    addContributions f ms ss = .ok ((ms.zip ss).map (fun p => (p.1.1, p.1.2 + g p.2))) := by
  induction ms with
  | nil => intro ss _ _; rfl
  | cons m ms ih =>
    intro ss hf hl
    cases ss with
    | nil => simp at hl
    | cons s ss =>
      unfold addContributions
      rw [ih ss (fun s hs => hf s (by simp [hs])) (by simpa using hl)]
      simp only [hf s (by simp), List.zip_cons_cons, List.map_cons]

/-- Specification of the effect of one normalisation on the ranking: candidate `i` gets the contribution
`c (score i)` on top of its total, the result holds the same candidates in descending order of total, and
candidates with equal totals keep their order. -/
structure Reranked {I : Type} (before : List (I × K)) (ss : List (Num K)) (c : Num K → K)
    (after : List (I × K)) : Prop where
  perm : after.Perm ((before.zip ss).map (fun p => (p.1.1, p.1.2 + c p.2)))
  sorted : after.Pairwise (fun a b => b.2 ≤ a.2)
  stable : ∀ a b, [a, b].Sublist ((before.zip ss).map (fun p => (p.1.1, p.1.2 + c p.2))) → a.2 = b.2 →
    [a, b].Sublist after

/-- Bounds and monotonicity of one contribution. -/
theorem contribution_good (lg : K → K) (hlg : ∀ u v, 0 < u → u < v → lg u < lg v) (w : K) (hw : 0 ≤ w)
    (invert log : Bool) (mn mx : K) (hlog : log = true → 0 < mx) (hmm : mn ≤ mx ∨ mn ≤ max floor10 (mx * floorRatio)) :
    ∃ c : K → K, (∀ r, r ≤ mx → (mn ≤ r ∨ mn ≤ max floor10 (mx * floorRatio)) →
        contribution lg w invert log mn mx r = some (c r) ∧ 0 ≤ c r ∧ c r ≤ w) ∧
      (∀ r t, r ≤ t → if invert then (mx < floor10 ∨ c t ≤ c r) else (mx < floor10 ∨ c r ≤ c t)) ∧
      (mx < floor10 → ∀ r t, r ≤ mx → t ≤ mx → c r = c t) ∧
      (max (max floor10 (mx * floorRatio)) mn < mx → (c mx = if invert then 0 else w) ∧
        ∀ r, r ≤ max (max floor10 (mx * floorRatio)) mn → mn ≤ r → c r = if invert then w else 0) ∧
      (mx = max (max floor10 (mx * floorRatio)) mn → ∀ r, c r = w / 2) := by
  have hfp := floor10_pos (K := K)
  set F : K := max floor10 (mx * floorRatio) with hF
  have hFp : 0 < F := lt_of_lt_of_le hfp (le_max_left _ _)
  set m' : K := max F mn with hm'
  have hm'p : 0 < m' := lt_of_lt_of_le hFp (le_max_left _ _)
  by_cases hne : mx ≠ m'
  swap
  · have heq : mx = m' := not_not.mp hne
    refine ⟨fun _ => w * neutral, ?_, ?_, fun _ _ _ _ _ => rfl,
      fun h => absurd heq (ne_of_gt h), fun _ _ => by unfold neutral; ring⟩
    · intro r _ _
      refine ⟨?_, mul_nonneg hw (by unfold neutral; positivity), ?_⟩
      · simp only [contribution, ← hF, ← hm', heq, ne_eq, not_true_eq_false, if_false]
        rw [if_neg]
        push Not
        rw [← heq, ← hF, ← hm']; exact heq
      · exact mul_le_of_le_one_right hw (by unfold neutral; norm_num)
    · intro r t _
      split <;> exact Or.inr (le_refl _)
  · let g : K → K := if log then lg else id
    have gmono : ∀ u v, 0 < u → u ≤ v → g u ≤ g v := by
      intro u v hu huv
      rcases eq_or_lt_of_le huv with rfl | h
      · exact le_refl _
      · simp only [g]; split
        · exact (hlg u v hu h).le
        · exact huv
    have gstrict : ∀ u v, 0 < u → u < v → g u < g v := by
      intro u v hu huv
      simp only [g]; split
      · exact hlg u v hu huv
      · exact huv
    have hform : ∀ r, contribution lg w invert log mn mx r
        = some (affine w invert (g m') (g mx) (g (max F r))) := by
      intro r
      have hrp : 0 < max F r := lt_of_lt_of_le hFp (le_max_left _ _)
      simp only [contribution, ← hF, ← hm']
      rw [if_pos hne]
      cases log with
      | true =>
        have := hlog rfl
        simp only [if_true, log10, hrp, hm'p, this, g, affine]
        cases invert <;> simp
      | false =>
        simp only [Bool.false_eq_true, if_false, g, affine, id]
        cases invert <;> simp
    refine ⟨fun r => affine w invert (g m') (g mx) (g (max F r)), ?_, ?_, ?_, ?_, fun h => absurd h hne⟩
    · intro r hr hmr
      refine ⟨hform r, ?_⟩
      show 0 ≤ affine _ _ _ _ _ ∧ affine _ _ _ _ _ ≤ _
      by_cases hsmall : mx < F
      · have e1 : max F r = F := max_eq_left (le_trans hr hsmall.le)
        have e2 : m' = F := by
          rw [hm']; apply max_eq_left
          rcases hmm with h | h
          · exact le_trans h hsmall.le
          · exact h
        rw [e1, e2, affine_low]
        split <;> exact ⟨by linarith, by linarith⟩
      · have hlt : m' < mx := by
          refine lt_of_le_of_ne ?_ hne.symm
          rw [hm']; apply max_le (not_lt.mp hsmall)
          rcases hmm with h | h
          · exact h
          · exact le_trans h (not_lt.mp hsmall)
        refine affine_bounds hw invert (gstrict _ _ hm'p hlt) (gmono _ _ hm'p ?_)
          (gmono _ _ (lt_of_lt_of_le hFp (le_max_left _ _)) (max_le (not_lt.mp hsmall) hr))
        rw [hm']
        apply max_le (le_max_left _ _)
        rcases hmr with h | h
        · exact le_trans h (le_max_right _ _)
        · exact le_trans h (le_max_left _ _)
    · intro r t hrt
      by_cases hmx : mx < floor10
      · split <;> exact Or.inl hmx
      · have hFle : F ≤ mx := by
          rw [hF]
          apply max_le (not_lt.mp hmx)
          have : (0:K) ≤ mx := le_trans hfp.le (not_lt.mp hmx)
          unfold floorRatio; norm_num; linarith
        have hlt : m' < mx := by
          refine lt_of_le_of_ne ?_ hne.symm
          rw [hm']; apply max_le hFle
          rcases hmm with h | h
          · exact h
          · exact le_trans h hFle
        have := affine_mono (w := w) hw invert (gstrict _ _ hm'p hlt)
          (gmono (max F r) (max F t) (lt_of_lt_of_le hFp (le_max_left _ _)) (max_le_max_left F hrt))
        cases invert
        · simp only [Bool.false_eq_true, if_false] at this ⊢; exact Or.inr this
        · simp only [if_true] at this ⊢; exact Or.inr this
    · intro hmx r t hr ht
      have hF' : floor10 ≤ F := le_max_left _ _
      have e1 : max F r = F := max_eq_left (by linarith)
      have e2 : max F t = F := max_eq_left (by linarith)
      simp only [e1, e2]
    · intro hlt
      have hF' : F ≤ mx := le_trans (le_max_left _ _) hlt.le
      refine ⟨?_, fun r hr hr' => ?_⟩
      · simp only [max_eq_right hF']; exact affine_high invert (gstrict _ _ hm'p hlt)
      · have : max F r = m' := le_antisymm (max_le (le_max_left _ _) hr) (max_le_max_left F hr')
        simp only [this]; exact affine_low invert

/-- **C12**: for every candidate list and every score list that starts with a finite score and holds no
`+inf` (NaN and `-inf` may occur further on; in logarithmic mode the largest score must be positive), every
candidate gets a contribution in `[0, weight]`, monotone in the score actually used, and the result is the
same candidates sorted by descending total, ties in their previous order. Without `-inf`, and with a largest
score above the floor, the best score used contributes the whole weight and the worst nothing (the other way
round when inverted), and half the weight each when all are equal. -/
theorem cross_reranked {I : Type} (lg : K → K) (hlg : ∀ u v, 0 < u → u < v → lg u < lg v) (w : K) (hw : 0 ≤ w)
    (invert log : Bool) (ranked : List (I × K)) (x : K) (l : List (Num K)) (hl : ∀ v ∈ l, v ≠ .pinf)
    (hlen : ranked.length ≤ l.length + 1) (hlog : log = true → ∃ y, 0 < y ∧ Num.fin y ∈ Num.fin x :: l) :
    ∃ (mx : K) (c : Num K → K) (after : List (I × K)),
      (Num.fin mx ∈ Num.fin x :: l ∧ ∀ y, Num.fin y ∈ Num.fin x :: l → y ≤ mx) ∧
      crossNormalize lg w invert log ranked (.fin x :: l) = .ok after ∧
      Reranked ranked (.fin x :: l) c after ∧
      (∀ s ∈ Num.fin x :: l, 0 ≤ c s ∧ c s ≤ w) ∧
      (∀ s ∈ Num.fin x :: l, ∀ t ∈ Num.fin x :: l, project mx s ≤ project mx t →
        if invert then c t ≤ c s else c s ≤ c t) ∧
      (Num.ninf ∉ l → floor10 < mx → (∃ s ∈ Num.fin x :: l, project mx s ≠ mx) →
        ∀ s ∈ Num.fin x :: l, (project mx s = mx → c s = if invert then 0 else w) ∧
          ((∀ t ∈ Num.fin x :: l, project mx s ≤ project mx t) → c s = if invert then w else 0)) ∧
      (Num.ninf ∉ l → floor10 ≤ mx → (∀ s ∈ Num.fin x :: l, project mx s = mx) →
        ∀ s ∈ Num.fin x :: l, c s = w / 2) := by
  obtain ⟨mx, a1, a2, a3, a4⟩ := maxElement_fin l x hl
  have hmax : ∀ y, Num.fin y ∈ Num.fin x :: l → y ≤ mx := by
    intro y hy
    rcases List.mem_cons.mp hy with h | h
    · cases h; exact a2
    · exact a3 y h
  have hmem : Num.fin mx ∈ Num.fin x :: l := by
    rcases a4 with h | h
    · rw [h]; simp
    · simp [h]
  have hproj : ∀ s ∈ Num.fin x :: l, project mx s ≤ mx := by
    intro s hs
    cases s with
    | fin y => exact hmax y hs
    | _ => exact le_refl _
  set F : K := max floor10 (mx * floorRatio) with hF
  set mn : K := minOr F (minElement (Num.fin x) l) with hmn
  have hmin : ∀ s ∈ Num.fin x :: l, mn ≤ project mx s ∨ mn ≤ F := by
    intro s hs
    rcases minElement_fin l x hl with h | ⟨m, b1, b2, b3, b4⟩
    · right; rw [hmn, h]; exact le_refl _
    · left
      have : mn = m := by rw [hmn, b1]; rfl
      rw [this]
      cases s with
      | fin y =>
        rcases List.mem_cons.mp hs with h | h
        · cases h; exact b2
        · exact b3 y h
      | _ => exact le_trans b2 a2
  have hmnval : Num.ninf ∉ l → ∃ m, m = mn ∧ Num.fin m ∈ Num.fin x :: l ∧
      ∀ y, Num.fin y ∈ Num.fin x :: l → mn ≤ y := by
    intro hni
    rcases minElement_fin l x hl with h | ⟨m, b1, b2, b3, b4⟩
    · exact absurd h (minElement_ne_ninf l _ (by simp) hni)
    · have : mn = m := by rw [hmn, b1]; rfl
      refine ⟨m, this.symm, ?_, ?_⟩
      · rcases b4 with h | h
        · rw [h]; simp
        · simp [h]
      · intro y hy
        rw [this]
        rcases List.mem_cons.mp hy with h | h
        · cases h; exact b2
        · exact b3 y h
  have hmm : mn ≤ mx ∨ mn ≤ F := by
    rcases hmin _ hmem with h | h
    · exact Or.inl h
    · exact Or.inr h
  obtain ⟨c, c1, c2, c3, c4, c5⟩ := contribution_good lg hlg w hw invert log mn mx (by
    intro h
    obtain ⟨y, hy0, hy⟩ := hlog h
    exact lt_of_lt_of_le hy0 (hmax y hy)) hmm
  refine ⟨mx, fun s => c (project mx s),
    sortDesc ((ranked.zip (.fin x :: l)).map (fun p => (p.1.1, p.1.2 + c (project mx p.2)))),
    ⟨hmem, hmax⟩, ?_, ⟨?_, ?_, ?_⟩, ?_, ?_, ?_, ?_⟩
  · have := addContributions_ok (I := I) (fun v => contribution lg w invert log mn mx (project mx v))
      (fun s => c (project mx s)) ranked (.fin x :: l)
      (fun s hs => (c1 _ (hproj s hs) (hmin s hs)).1) (by simpa using hlen)
    unfold crossNormalize
    simp only [a1, ← hF, ← hmn, this]
  · exact sortDesc_perm _
  · exact sortDesc_sorted _
  · intro a b h hab; exact sortDesc_stable _ a b h hab.ge
  · intro s hs; exact (c1 _ (hproj s hs) (hmin s hs)).2
  · intro s hs t ht hst
    have h2 := c2 _ _ hst
    by_cases hmx : mx < floor10
    · have := c3 hmx _ _ (hproj s hs) (hproj t ht)
      split <;> exact le_of_eq (by first | exact this | exact this.symm)
    · cases invert
      · simp only [Bool.false_eq_true, if_false] at h2 ⊢; exact h2.resolve_left hmx
      · simp only [if_true] at h2 ⊢; exact h2.resolve_left hmx
  · intro hni hfl hdiff s hs
    obtain ⟨m, b0, b1, b2⟩ := hmnval hni
    have hmn_lt : mn < mx := by
      obtain ⟨t, ht, htne⟩ := hdiff
      cases t with
      | fin y => exact lt_of_le_of_lt (b2 y ht) (lt_of_le_of_ne (hmax y ht) htne)
      | _ => exact absurd rfl htne
    have hFlt : F < mx := by
      rw [hF]
      refine max_lt hfl ?_
      have hp : (0:K) < mx := lt_trans floor10_pos hfl
      unfold floorRatio; norm_num; linarith
    obtain ⟨d1, d2⟩ := c4 (max_lt hFlt hmn_lt)
    refine ⟨fun h => by simp only [h]; exact d1, fun h => d2 _ ?_ ?_⟩
    · exact le_trans (h _ b1) (by simp only [project, b0]; exact le_max_right _ _)
    · cases s with
      | fin y => exact b2 y hs
      | _ => exact hmn_lt.le
  · intro hni hfl hall s hs
    obtain ⟨m, b0, b1, b2⟩ := hmnval hni
    apply c5
    have e : mn = mx := by
      have := hall _ b1
      simp only [project] at this
      rw [← b0]; exact this
    rw [e]
    refine (max_eq_right (max_le hfl ?_)).symm
    have hp : (0:K) ≤ mx := le_trans floor10_pos.le hfl
    unfold floorRatio; norm_num; linarith

/-- **C12**: when all scores are equal and not below the floor `1e-10`, every candidate gets half the
weight. -/
theorem cross_tie_neutral (lg : K → K) (w : K) (invert log : Bool) (s : K) (hs : floor10 ≤ s) :
    contribution lg w invert log s s s = some (w / 2) := by
  have hfp := floor10_pos (K := K)
  have h : max (max floor10 (s * floorRatio)) s = s := by
    apply max_eq_right
    apply max_le hs
    have : (0:K) ≤ s := le_trans hfp.le hs
    unfold floorRatio; norm_num; linarith
  simp only [contribution, h, ne_eq, not_true_eq_false, if_false, neutral]
  congr 1; ring

/-- Disagreement with **C12**: when all scores are 0 (all candidates match perfectly) the contribution is
not neutral: nothing in direct mode, the whole weight in inverted mode. -/
theorem cross_tie_at_zero_not_neutral :
    contribution (fun x : ℚ => x) 1 false false 0 0 0 = some 0 ∧
    contribution (fun x : ℚ => x) 1 true false 0 0 0 = some 1 := by decide +kernel

/-- Disagreement with **C12**: a NaN score in the first position gives every candidate the whole weight,
whatever the other scores are. -/
theorem cross_nan_first {I : Type} (lg : K → K) (w : K) (invert log : Bool) (ranked : List (I × K))
    (l : List (Num K)) :
    crossNormalize lg w invert log ranked (.nan :: l) =
      .ok (sortDesc (ranked.map (fun p => (p.1, p.2 + w)))) := by
  have : maxElement (.nan : Num K) l = .nan := by
    induction l with
    | nil => rfl
    | cons v l ih => rw [maxElement]; cases v <;> simpa [Num.ltB] using ih
  simp [crossNormalize, this]

/-- A concrete ranking meeting the hypotheses of `cross_reranked`: two candidates and scores 1 and NaN. -/
example : (∀ v ∈ ([.nan] : List (Num ℚ)), v ≠ .pinf) ∧ ([(0, 0), (1, 5)] : List (Nat × ℚ)).length ≤ 1 + 1 := by
  simp

/-- **C12** (reported scorings), partial: the unweighted reported score of every recorded raw value is in
`[0, 1]` when no raw value is below the floor `max(1e-10, 1e-6 * maximum)`. What is missing: raw values below
the floor (`reported_negative`). -/
theorem reported_range_partial (lg : K → K) (hlg : ∀ u v, 0 < u → u < v → lg u < lg v) (invert log : Bool)
    (mn mx raw : K) (h1 : mn ≤ raw) (h2 : raw ≤ mx) (hf : floor10 ≤ raw ∧ mx * floorRatio ≤ raw) :
    ∃ s, reported lg none invert log mn mx raw = some s ∧ 0 ≤ s ∧ s ≤ 1 := by
  have hfp := floor10_pos (K := K)
  set m' : K := max floor10 (max mn (mx * floorRatio)) with hm'
  have hm'r : m' ≤ raw := max_le hf.1 (max_le h1 hf.2)
  have hm'p : 0 < m' := lt_of_lt_of_le hfp (le_max_left _ _)
  have hrp : 0 < raw := lt_of_lt_of_le hfp hf.1
  have hxp : 0 < mx := lt_of_lt_of_le hrp h2
  by_cases heq : m' = mx
  · refine ⟨neutral, ?_, by unfold neutral; positivity, by unfold neutral; norm_num⟩
    simp only [reported, ← hm', heq, if_true]
  · have hlt : m' < mx := lt_of_le_of_ne (le_trans hm'r h2) heq
    cases log with
    | true =>
      have g1 : lg m' ≤ lg raw := by
        rcases eq_or_lt_of_le hm'r with h | h
        · rw [h]
        · exact (hlg _ _ hm'p h).le
      have g2 : lg raw ≤ lg mx := by
        rcases eq_or_lt_of_le h2 with h | h
        · rw [h]
        · exact (hlg _ _ hrp h).le
      obtain ⟨u1, u2⟩ := unit_bounds (hlg _ _ hm'p hlt) g1 g2
      simp only [reported, ← hm', if_neg heq, if_true, log10, hrp, hm'p, hxp]
      cases invert
      · exact ⟨_, rfl, by simpa using u1, by simpa using u2⟩
      · refine ⟨_, rfl, ?_, ?_⟩ <;> simp only [if_true] <;> linarith
    | false =>
      obtain ⟨u1, u2⟩ := unit_bounds hlt hm'r h2
      simp only [reported, ← hm', if_neg heq, Bool.false_eq_true, if_false]
      cases invert
      · exact ⟨_, rfl, by simpa using u1, by simpa using u2⟩
      · refine ⟨_, rfl, ?_, ?_⟩ <;> simp only [if_true] <;> linarith

/-- Every name of a filter is reported, with the score of its raw value. -/
theorem reportFilter_eq {N : Type} (lg : K → K) (w : Option K) (invert log : Bool) (aux : SMap N K)
    (hne : aux ≠ []) : ∃ mn mx, mn ∈ aux.map Prod.snd ∧ mx ∈ aux.map Prod.snd ∧
      (∀ v ∈ aux.map Prod.snd, mn ≤ v ∧ v ≤ mx) ∧
      reportFilter lg w invert log aux = aux.map (fun p => (p.1, reported lg w invert log mn mx p.2)) := by
  cases aux with
  | nil => exact absurd rfl hne
  | cons x l =>
    obtain ⟨mn, mx, h1, h2, h3, h4, h5⟩ := extremes x.2 (l.map Prod.snd)
    refine ⟨mn, mx, by simpa using h3, by simpa using h4, by simpa using h5, ?_⟩
    have e : ((x :: l).map (fun p => Num.fin p.2)).drop 1 = (l.map Prod.snd).map Num.fin := by simp
    unfold reportFilter
    simp only [e, h1, h2]

/-- **C12** (reported scorings), partial, for a whole filter: if the smallest recorded raw value is not below
the floor, every reported score is in `[0, 1]`. -/
theorem report_range_partial {N : Type} (lg : K → K) (hlg : ∀ u v, 0 < u → u < v → lg u < lg v)
    (invert log : Bool) (aux : SMap N K) (hf : ∀ v ∈ aux.map Prod.snd, floor10 ≤ v ∧
      ∀ u ∈ aux.map Prod.snd, u * floorRatio ≤ v) :
    ∀ p ∈ reportFilter lg none invert log aux, ∃ s, p.2 = some s ∧ 0 ≤ s ∧ s ≤ 1 := by
  by_cases hne : aux = []
  · subst hne; simp [reportFilter]
  · obtain ⟨mn, mx, h1, h2, h3, h4⟩ := reportFilter_eq lg none invert log aux hne
    rw [h4]
    intro p hp
    obtain ⟨q, hq, rfl⟩ := List.mem_map.mp hp
    have hm : q.2 ∈ aux.map Prod.snd := List.mem_map.mpr ⟨q, hq, rfl⟩
    exact reported_range_partial lg hlg invert log mn mx q.2 (h3 _ hm).1 (h3 _ hm).2
      ⟨(hf _ hm).1, (hf _ hm).2 mx h2⟩

example : ∀ v ∈ ([(0, 1), (1, 2)] : SMap Nat ℚ).map Prod.snd, floor10 ≤ v ∧
    ∀ u ∈ ([(0, 1), (1, 2)] : SMap Nat ℚ).map Prod.snd, u * floorRatio ≤ v := by
  simp [floor10, floorRatio]; norm_num

/-- Disagreement with **C12**: a perfect match (raw score 0) is reported below 0 in direct mode and above 1
in inverted mode. -/
theorem reported_negative :
    (∃ s, (0, some s) ∈ reportFilter (fun x : ℚ => x) none false false [(0, 0), (1, 1)] ∧ s < 0) ∧
    (∃ s, (0, some s) ∈ reportFilter (fun x : ℚ => x) none true false [(0, 0), (1, 1)] ∧ 1 < s) := by
  refine ⟨⟨-1/999999, by decide +kernel, by norm_num⟩, ⟨1000000/999999, by decide +kernel, by norm_num⟩⟩

end Verif.Scoring
