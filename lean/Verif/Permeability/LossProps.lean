import Verif.Permeability.Props

/-! # The series resistance where the loss factor was measured, and without measurements -/

namespace Verif.Permeability

set_option linter.unusedSimpArgs false

/-- Every point has a frequency, and no two have the same. -/
def MeasuredLoss (loss : List (Option ℚ × ℚ)) : Prop :=
  (∀ p ∈ loss, p.1 ≠ none) ∧ loss.Pairwise fun p q => p.1 ≠ q.1

/-- The loss factor is the measured one. -/
theorem lossFactor_measured {env : Env} (hi : Interpolates env) {m : Material} {loss : List (Option ℚ × ℚ)}
    (hl : m.lossFactor = some loss) (hm : MeasuredLoss loss) {f y : ℚ} (hy : (some f, y) ∈ loss) :
    (lossFactor env m f Caches.empty).2 = .ok y := by
  obtain ⟨l, h1, h2⟩ := mapM_frequencies loss hm.1
  have hd : Distinct l := by
    have := hm.2
    rw [h2, List.pairwise_map] at this
    exact this.imp fun h e => h (by rw [e])
  have hmem : (f, y) ∈ sortPoints l := by
    rw [mem_sortPoints]
    rw [h2, List.mem_map] at hy
    obtain ⟨q, hq, he⟩ := hy
    simp only [Prod.mk.injEq, Option.some.injEq] at he
    rw [← he.1, ← he.2]
    exact hq
  have hs := sortPoints_strict hd
  unfold lossFactor
  rw [show Caches.empty.loss m.name = none from rfl, hl]
  simp only
  unfold lossCurve
  rw [h1]
  simp only
  rw [kept_id hd]
  generalize sortPoints l = k at hs hmem
  match k, hs, hmem with
  | [], _, h => simp at h
  | [p], _, h =>
    simp only [List.mem_cons, List.not_mem_nil, or_false] at h
    subst h
    rfl
  | [p, q], hs, h =>
    have c := clampTo_mem hs h
    simp only at c
    simp only [lossValue, c, Curve.eval, Res.ok.injEq]
    simp only [List.pairwise_cons, List.mem_cons, List.not_mem_nil, or_false, forall_eq] at hs
    have hne : q.1 - p.1 ≠ 0 := by linarith [hs.1]
    simp only [List.mem_cons, List.not_mem_nil, or_false] at h
    rcases h with h | h
    · rw [← h]; simp
    · rw [← h] at hne ⊢
      simp only at hne ⊢
      rw [mul_div_assoc, div_self hne]
      ring
  | p :: q :: r :: rest, hs, h =>
    have c := clampTo_mem hs h
    have i := hi _ hs (by simp) _ h
    simp only at c i
    simp only [lossValue, c, i]

/-- Parts of a series resistance, put together. -/
theorem resistance_parts {env : Env} {m : Material} {f t L mu tan : ℚ}
    (h1 : (initialPermeability env m (some t) none none none Caches.empty).2 = .ok mu)
    (h2 : (lossFactor env m f Caches.empty).2 = .ok tan) :
    (seriesResistance env m f t L Caches.empty).2 =
      if tan < 0 then .throws .negative else .ok (tan * mu * env.twoPi * f * L) := by
  have s1 : Steady env m (initialPermeability env m (some t) none none none) := stable_initial (oneOf_self m) rfl _ _ _ _
  have s2 : Steady env m (lossFactor env m f) := stable_loss (oneOf_self m) rfl _
  unfold seriesResistance M.bind
  have hF := (s1 _ (faithful_empty _ _ _)).2
  have e2 := (s2 _ hF).1
  split
  · rename_i c' a he
    rw [he] at h1 hF e2
    simp only [Res.ok.injEq] at h1
    subst h1
    simp only at e2
    rw [h2] at e2
    obtain ⟨c'', r, hq⟩ : ∃ c'' r, lossFactor env m f c' = (c'', r) := ⟨_, _, rfl⟩
    rw [hq] at e2
    simp only at e2
    subst e2
    simp only [hq]
    split <;> rfl
  · rename_i he; rw [he] at h1; simp at h1
  · rename_i he; rw [he] at h1; simp at h1

/-- **C80.** At a frequency where the loss factor was measured, the series resistance is the one of the measured value: its
product with permeability, angular frequency and inductance. A negative measured value is refused. -/
theorem resistance_at_measured {env : Env} (hi : Interpolates env) {m : Material} {loss : List (Option ℚ × ℚ)}
    (hl : m.lossFactor = some loss) (hm : MeasuredLoss loss) {f y t L mu : ℚ} (hy : (some f, y) ∈ loss)
    (hmu : (initialPermeability env m (some t) none none none Caches.empty).2 = .ok mu) :
    (0 ≤ y → (seriesResistance env m f t L Caches.empty).2 = .ok (y * mu * (env.twoPi * f) * L)) ∧
    (y < 0 → (seriesResistance env m f t L Caches.empty).2 = .throws .negative) := by
  rw [resistance_parts hmu (lossFactor_measured hi hl hm hy)]
  refine ⟨fun h => ?_, fun h => by rw [if_pos h]⟩
  rw [if_neg (not_lt.mpr h)]
  congr 1
  ring

/-- **C80.** Without a measured loss factor there is no series resistance. -/
theorem resistance_needs_measurements {env : Env} {m : Material} (hl : m.lossFactor = none ∨ m.lossFactor = some [])
    {f t L mu : ℚ} (hmu : (initialPermeability env m (some t) none none none Caches.empty).2 = .ok mu) :
    (seriesResistance env m f t L Caches.empty).2 = .throws .missingData := by
  have s1 : Steady env m (initialPermeability env m (some t) none none none) := stable_initial (oneOf_self m) rfl _ _ _ _
  have s2 : Steady env m (lossFactor env m f) := stable_loss (oneOf_self m) rfl _
  have h2 : (lossFactor env m f Caches.empty).2 = .throws .missingData := by
    unfold lossFactor
    rw [show Caches.empty.loss m.name = none from rfl]
    rcases hl with h | h <;> rw [h] <;> rfl
  unfold seriesResistance M.bind
  have hF := (s1 _ (faithful_empty _ _ _)).2
  have e2 := (s2 _ hF).1
  split
  · rename_i c' a he
    rw [he] at e2
    simp only at e2
    rw [h2] at e2
    obtain ⟨c'', r, hq⟩ : ∃ c'' r, lossFactor env m f c' = (c'', r) := ⟨_, _, rfl⟩
    rw [hq] at e2
    simp only at e2
    subst e2
    simp only [hq]
  · rename_i he; rw [he] at hmu; simp at hmu
  · rename_i he; rw [he] at hmu; simp at hmu

/-- The hypotheses hold of a filter material, whose resistance at a measured frequency is not zero. -/
example : MeasuredLoss [(some 10000, 1 / 1000000), (some 100000, 5 / 1000000)] ∧
    (initialPermeability plainEnv filter (some 25) none none none Caches.empty).2 = .ok 2000 ∧
    (seriesResistance { plainEnv with twoPi := 6 } filter 100000 25 1 Caches.empty).2 = .ok 6000 := by
  refine ⟨⟨by decide, by decide⟩, by decide +kernel, by decide +kernel⟩

/-- A material measured for permeability only. -/
example : ({ filter with lossFactor := some [] } : Material).lossFactor = some [] ∧
    (initialPermeability plainEnv { filter with lossFactor := some [] } (some 25) none none none Caches.empty).2 = .ok 2000 :=
  ⟨rfl, by decide +kernel⟩

end Verif.Permeability
