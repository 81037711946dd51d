import Verif.Permeability.AnswerLemmas

/-!
# Properties of permeability: C77 to C81

`AtLeast`, `AtAmbient`, `NoTie`, `Interpolates`, `Measured` and `OneOrThree`, used in the statements, are about measured
points and the spline only; they are defined with their lemmas in `CurveLemmas` and `AnswerLemmas`.
-/

namespace Verif.Permeability

set_option linter.unusedSimpArgs false

/-! ## C77: answers do not depend on what was asked before -/

/-- C77 (partial): whatever was asked before on the thread, the answer is the one of a thread that was asked nothing, as
long as each name always stood for the same material. Missing: see `name_reused_answers_with_old_material`. -/
theorem answers_keep_no_memory_partial (env : Env) (derive : Material → Asking) (before : List Call) (k : Call)
    (h : ∀ a ∈ k :: before, ∀ b ∈ k :: before, a.material.name = b.material.name → a.material = b.material) :
    (k.run env derive (after env derive before Caches.empty)).2 = (k.run env derive Caches.empty).2 := by
  let R : Material → Prop := fun m => ∃ a ∈ k :: before, a.material = m
  have hR : OneOf R := by
    rintro m m' ⟨a, ha, rfl⟩ ⟨b, hb, rfl⟩ hn
    exact h a ha b hb hn
  have hF := faithful_after (env := env) (derive := derive) hR before Caches.empty
    (fun a ha => ⟨a, List.mem_cons_of_mem _ ha, rfl⟩) (faithful_empty env derive R)
  exact (stable_call hR k ⟨k, List.mem_cons_self, rfl⟩ _ hF).1

/-- Parameters for the examples: a spline that is constant after each point, no formulas. -/
def plainEnv : Env where
  spline := fun l x => ((l.filter fun p => decide (p.1 ≤ x)).getLast?.map fun p => p.2).getD 0
  formula := fun _ _ _ _ _ => .throws .other
  sampled := fun _ => []
  amplitude := fun _ _ h _ => .ok (h.map fun x => 100 - x)

/-- A material measured at 25 and 100 degrees. -/
def oldFerrite : Material :=
  { name := "M", initial := .measured [⟨2000, some 25, none, none⟩, ⟨3000, some 100, none, none⟩] }

/-- Another material with the same name. -/
def newFerrite : Material :=
  { name := "M", initial := .measured [⟨500, some 25, none, none⟩, ⟨800, some 100, none, none⟩] }

/-- C77: a material that takes the name of another is answered with the permeability of the old one, on threads that
computed the old one; on others it is answered with its own. -/
theorem name_reused_answers_with_old_material :
    ((Call.initial newFerrite (some 100) none none none).run plainEnv (fun _ => .fail .other)
      (after plainEnv (fun _ => .fail .other) [.initial oldFerrite none none none none] Caches.empty)).2 = .ok (3000, 0) ∧
    ((Call.initial newFerrite (some 100) none none none).run plainEnv (fun _ => .fail .other) Caches.empty).2 =
      .ok (800, 0) := by
  constructor <;> decide +kernel

example : ∀ a ∈ [Call.initial oldFerrite (some 100) none none none, .complex oldFerrite 1000],
    ∀ b ∈ [Call.initial oldFerrite (some 100) none none none, .complex oldFerrite 1000],
      a.material.name = b.material.name → a.material = b.material := by decide +kernel

/-! ## C78: permeability at what was measured, above the Curie temperature and in saturation -/

variable {env : Env} {m : Material} {points : List Point}

/-- C78: above the Curie temperature of the material, permeability is one. -/
theorem above_curie_is_one {t h f b : Option ℚ} {c : Caches} {v x y : ℚ}
    (hv : (initialPermeability env m t h f b c).2 = .ok v) (hx : m.curie = some x) (ht : t = some y) (hxy : x < y) :
    v = 1 := by
  unfold initialPermeability at hv
  obtain ⟨w, _, hv⟩ := bind_ok hv
  have e : aboveCurie m.curie t = true := by
    rw [hx, ht]
    simpa [aboveCurie] using hxy
  rw [if_pos e] at hv
  simpa [M.pure] using hv.symm

example : (initialPermeability plainEnv { oldFerrite with curie := some 220 } (some 300) none none none Caches.empty).2 =
    .ok 1 := by decide +kernel

/-- C78: at a temperature where it was measured, permeability is the measured one, or one if that was less. The points
considered are those at the least frequency and bias of the material, which must have a temperature, each its own. -/
theorem permeability_at_measured_temperature (hi : Interpolates env) (hm : m.initial = .measured points)
    (hall : ∀ p ∈ points, AtLeast (fun p => p.frequency) points p → AtLeast (fun p => p.bias) points p →
      p.temperature ≠ none)
    (hdist : points.Pairwise fun a b =>
      (AtLeast (fun p => p.frequency) points a ∧ AtLeast (fun p => p.bias) points a) →
      (AtLeast (fun p => p.frequency) points b ∧ AtLeast (fun p => p.bias) points b) → a.temperature ≠ b.temperature)
    {p q r : Point} (hq : q ∈ points) (hr : r ∈ points) {x y : ℚ} (hx : q.temperature = some x)
    (hy : r.temperature = some y) (hxy : |x - y| > 2 / 10 ^ 9) (hp : p ∈ points)
    (hpf : AtLeast (fun p => p.frequency) points p) (hpb : AtLeast (fun p => p.bias) points p) {t : ℚ}
    (ht : p.temperature = some t) (hc : ∀ z, m.curie = some z → t ≤ z) :
    (initialPermeability env m (some t) none none none Caches.empty).2 = .ok (max 1 p.value) := by
  have hT : hasTemperature points = true := hasTemperature_of hq hr hx hy hxy
  have hmem : p ∈ temperaturePoints env points := mem_temperaturePoints.mpr ⟨hp, hpf, hpb⟩
  have hne := List.ne_nil_of_mem hmem
  obtain ⟨l, h1, _, h3, _, h5⟩ := abscissas_some (fun p => p.temperature) (temperaturePoints env points) fun p' h' => by
    obtain ⟨g1, g2, g3⟩ := mem_temperaturePoints.mp h'
    exact hall p' g1 g2 g3
  have hd : Distinct l := h5 (pairwise_part List.filter_sublist (fun p' h' => (mem_temperaturePoints.mp h').2) hdist)
  obtain ⟨k, hk, hk'⟩ := temperatureCurve_at hi hd (h3 p hmem t ht)
  simp only at hk'
  obtain ⟨ref, href, h0⟩ : ∃ ref, (reference env m points Caches.empty).2 = .ok ref ∧ ref ≠ 0 := by
    refine ⟨_, by unfold reference; rw [if_pos hT]; exact temperatureDependent_eq hm hne h1 hk env.ambient, ?_⟩
    split
    · exact one_ne_zero
    · exact ne_of_gt (lt_of_lt_of_le one_pos (le_max_left _ _))
  have hv := temperatureDependent_eq hm hne h1 hk t
  rw [hk', if_neg (by
    cases hcu : m.curie with
    | none => simp
    | some z => simpa using hc z hcu)] at hv
  rw [initial_points_iff hm (fun z w hz hw => by simp only [Option.some.injEq] at hw; subst hw; exact hc z hz),
    fromPoints_ok (List.ne_nil_of_mem hp)]
  refine ⟨ref, factor (max 1 p.value) ref, some 1, some 1, some 1, href, ?_, factorIf_none _ _ _, factorIf_none _ _ _,
    saturationIf_none _ _ _, (product_one h0).1⟩
  rw [hT]
  exact factorIf_some hv

/-- The hypotheses hold of a material measured at 25 and 100 degrees. -/
example : (∀ p ∈ [(⟨2000, some 25, none, none⟩ : Point), ⟨3000, some 100, none, none⟩], p.temperature ≠ none) ∧
    (|(25 : ℚ) - 100| > 2 / 10 ^ 9) ∧
    (initialPermeability plainEnv oldFerrite (some 100) none none none Caches.empty).2 = .ok 3000 := by
  refine ⟨?_, ?_, ?_⟩ <;> decide +kernel

/-- C78: at a frequency where it was measured, for a material that has a reference permeability, permeability is the
measured one, or one if that was less. The points considered are those at the temperature closest to the ambient and at
the least bias; they must have a frequency, each its own, and be at least three. -/
theorem permeability_at_measured_frequency (hi : Interpolates env) (hm : m.initial = .measured points)
    (hn : NoTie env.ambient points)
    (hall : ∀ p ∈ points, AtAmbient env.ambient points p → AtLeast (fun p => p.bias) points p → p.frequency ≠ none)
    (hdist : points.Pairwise fun a b =>
      (AtAmbient env.ambient points a ∧ AtLeast (fun p => p.bias) points a) →
      (AtAmbient env.ambient points b ∧ AtLeast (fun p => p.bias) points b) → a.frequency ≠ b.frequency)
    (hthree : ∃ p q r, (∀ x ∈ [p, q, r], x ∈ points ∧ AtAmbient env.ambient points x ∧
      AtLeast (fun p => p.bias) points x) ∧ p.frequency ≠ q.frequency ∧ p.frequency ≠ r.frequency ∧
      q.frequency ≠ r.frequency)
    (hf : ∃ q ∈ points, ∃ g, q.frequency = some g ∧ env.quasiStatic < g)
    {ref : ℚ} (hr : (initialPermeability env m none none none none Caches.empty).2 = .ok ref) (h0 : ref ≠ 0)
    {p : Point} (hp : p ∈ points) (hpa : AtAmbient env.ambient points p) (hpb : AtLeast (fun p => p.bias) points p)
    {f : ℚ} (hpf : p.frequency = some f) :
    (initialPermeability env m none none (some f) none Caches.empty).2 = .ok (max 1 p.value) := by
  have hF : hasFrequency env points = true := by
    obtain ⟨q, hq, g, hg, hlt⟩ := hf
    unfold hasFrequency
    rw [List.any_eq_true]
    exact ⟨q, hq, by rw [hg]; simpa using hlt⟩
  have hmem : p ∈ frequencyPoints env points := (mem_frequencyPoints hn).mpr ⟨hp, hpa, hpb⟩
  obtain ⟨l, h1, h2, h3, _, h5⟩ := abscissas_some (fun p => p.frequency) (frequencyPoints env points) fun p' h' => by
    obtain ⟨g1, g2, g3⟩ := (mem_frequencyPoints hn).mp h'
    exact hall p' g1 g2 g3
  have hd : Distinct l :=
    h5 (pairwise_part List.filter_sublist (fun p' h' => ((mem_frequencyPoints hn).mp h').2) hdist)
  have hlen : 3 ≤ l.length := by
    obtain ⟨a, b, c, hm', hab, hac, hbc⟩ := hthree
    rw [h2]
    exact three_points (f := fun p => p.frequency) ((mem_frequencyPoints hn).mpr (hm' a (by simp)))
      ((mem_frequencyPoints hn).mpr (hm' b (by simp))) ((mem_frequencyPoints hn).mpr (hm' c (by simp))) hab hac hbc
  obtain ⟨s, hs, hs'⟩ := otherCurve_at hi hd hlen (h3 p hmem f hpf)
  have hv := frequencyDependent_eq hm (List.ne_nil_of_mem hmem) h1 hs f
  simp only [otherValue, Curve.eval] at hv hs'
  rw [hs'] at hv
  have hne := List.ne_nil_of_mem hp
  rw [initial_points_iff hm (fun z w _ hw => by simp at hw), fromPoints_ok hne]
  refine ⟨ref, some 1, factor (max 1 p.value) ref, some 1, some 1, reference_of_nothing hm hne hr, factorIf_none _ _ _, ?_,
    factorIf_none _ _ _, saturationIf_none _ _ _, (product_one h0).2.1⟩
  rw [hF]
  exact factorIf_some hv

/-- A material measured at four frequencies. -/
def powder : Material :=
  { name := "P", initial := .measured [⟨125, none, some 10000, none⟩, ⟨124, none, some 100000, none⟩,
      ⟨110, none, some 1000000, none⟩, ⟨60, none, some 10000000, none⟩] }

/-- The hypotheses hold of it. -/
example : (initialPermeability plainEnv powder none none none none Caches.empty).2 = .ok 125 ∧
    (initialPermeability plainEnv powder none none (some 1000000) none Caches.empty).2 = .ok 110 := by
  constructor <;> decide +kernel

/-- C78: at a bias where it was measured, likewise; the points considered are those at the temperature closest to the
ambient and at the least frequency. -/
theorem permeability_at_measured_bias (hi : Interpolates env) (hm : m.initial = .measured points)
    (hn : NoTie env.ambient points)
    (hall : ∀ p ∈ points, AtAmbient env.ambient points p → AtLeast (fun p => p.frequency) points p → p.bias ≠ none)
    (hdist : points.Pairwise fun a b =>
      (AtAmbient env.ambient points a ∧ AtLeast (fun p => p.frequency) points a) →
      (AtAmbient env.ambient points b ∧ AtLeast (fun p => p.frequency) points b) → a.bias ≠ b.bias)
    (hthree : ∃ p q r, (∀ x ∈ [p, q, r], x ∈ points ∧ AtAmbient env.ambient points x ∧
      AtLeast (fun p => p.frequency) points x) ∧ p.bias ≠ q.bias ∧ p.bias ≠ r.bias ∧ q.bias ≠ r.bias)
    (hb : ∃ q ∈ points, ∃ g, q.bias = some g ∧ 0 < g)
    {ref : ℚ} (hr : (initialPermeability env m none none none none Caches.empty).2 = .ok ref) (h0 : ref ≠ 0)
    {p : Point} (hp : p ∈ points) (hpa : AtAmbient env.ambient points p)
    (hpf : AtLeast (fun p => p.frequency) points p) {x : ℚ} (hpx : p.bias = some x) :
    (initialPermeability env m none (some x) none none Caches.empty).2 = .ok (max 1 p.value) := by
  have hB : hasBias points = true := by
    obtain ⟨q, hq, g, hg, hlt⟩ := hb
    unfold hasBias
    rw [List.any_eq_true]
    exact ⟨q, hq, by rw [hg]; simpa using hlt⟩
  have hmem : p ∈ biasPoints env points := (mem_biasPoints hn).mpr ⟨hp, hpa, hpf⟩
  obtain ⟨l, h1, h2, h3, _, h5⟩ := abscissas_some (fun p => p.bias) (biasPoints env points) fun p' h' => by
    obtain ⟨g1, g2, g3⟩ := (mem_biasPoints hn).mp h'
    exact hall p' g1 g2 g3
  have hd : Distinct l :=
    h5 (pairwise_part List.filter_sublist (fun p' h' => ((mem_biasPoints hn).mp h').2) hdist)
  have hlen : 3 ≤ l.length := by
    obtain ⟨a, b, c, hm', hab, hac, hbc⟩ := hthree
    rw [h2]
    exact three_points (f := fun p => p.bias) ((mem_biasPoints hn).mpr (hm' a (by simp)))
      ((mem_biasPoints hn).mpr (hm' b (by simp))) ((mem_biasPoints hn).mpr (hm' c (by simp))) hab hac hbc
  obtain ⟨s, hs, hs'⟩ := otherCurve_at hi hd hlen (h3 p hmem x hpx)
  have hv := biasDependent_eq hm (List.ne_nil_of_mem hmem) h1 hs x
  simp only [otherValue, Curve.eval] at hv hs'
  rw [hs'] at hv
  have hne := List.ne_nil_of_mem hp
  rw [initial_points_iff hm (fun z w _ hw => by simp at hw), fromPoints_ok hne]
  refine ⟨ref, some 1, some 1, factor (max 1 p.value) ref, some 1, reference_of_nothing hm hne hr, factorIf_none _ _ _,
    factorIf_none _ _ _, ?_, ?_, (product_one h0).2.2⟩
  · rw [hB]
    exact factorIf_some hv
  · unfold saturationIf
    rw [hB]
    rfl

/-- A material measured at three biases. -/
def sendust : Material :=
  { name := "S", initial := .measured [⟨60, none, none, some 0⟩, ⟨50, none, none, some 1000⟩, ⟨30, none, none, some 4000⟩] }

/-- The hypotheses hold of it. -/
example : (initialPermeability plainEnv sendust none none none none Caches.empty).2 = .ok 60 ∧
    (initialPermeability plainEnv sendust none (some 4000) none none Caches.empty).2 = .ok 30 := by
  constructor <;> decide +kernel

/-- C78: in a material not measured under bias, a bias or a flux density never raises permeability. -/
theorem saturation_never_raises (hm : m.initial = .measured points) (hpos : ∀ p ∈ points, 0 < p.value)
    (hnb : ∀ p ∈ points, ∀ x, p.bias = some x → x ≤ 0) {t h f b : Option ℚ} {v v₀ : ℚ}
    (hv : (initialPermeability env m t h f b Caches.empty).2 = .ok v)
    (hv₀ : (initialPermeability env m t none f none Caches.empty).2 = .ok v₀) : v ≤ v₀ := by
  by_cases hcu : ∃ x y, m.curie = some x ∧ t = some y ∧ x < y
  · obtain ⟨x, y, hx, hy, hxy⟩ := hcu
    rw [above_curie_is_one hv hx hy hxy, above_curie_is_one hv₀ hx hy hxy]
  have hc : ∀ x y, m.curie = some x → t = some y → y ≤ x := fun x y hx hy =>
    not_lt.mp fun hlt => hcu ⟨x, y, hx, hy, hlt⟩
  rw [initial_points_iff hm hc] at hv hv₀
  by_cases hne : points = []
  · unfold fromPoints at hv hv₀
    rw [if_pos hne] at hv hv₀
    rw [hv] at hv₀
    simp only [Res.ok.injEq, Option.some.injEq] at hv₀
    exact le_of_eq hv₀
  have hB : hasBias points = false := by
    unfold hasBias
    rw [List.any_eq_false]
    intro p hp
    cases hx : p.bias with
    | none => simp
    | some x => simpa using hnb p hp x hx
  rw [fromPoints_ok hne] at hv hv₀
  obtain ⟨ref, ft, ff, fh, fs, h1, h2, h3, h4, h5, h6⟩ := hv
  obtain ⟨ref', ft', ff', fh', fs', h1', h2', h3', h4', h5', h6'⟩ := hv₀
  rw [h1, Res.ok.injEq] at h1'
  subst h1'
  rw [h2, Res.ok.injEq] at h2'
  rw [h3, Res.ok.injEq] at h3'
  subst h2' h3'
  rw [hB] at h4 h4'
  have e4 : fh = some 1 := by simp [factorIf, M.pure] at h4; exact h4.symm
  have e4' : fh' = some 1 := by simp [factorIf, M.pure] at h4'; exact h4'.symm
  subst e4 e4'
  rw [saturationIf_none, Res.ok.injEq] at h5'
  subst h5'
  have h0 := reference_pos hm hpos h1
  obtain ⟨x, rfl, hx⟩ := factorIf_pos h0 (fun a w hw => lt_of_lt_of_le one_pos (temperatureDependent_ge hw)) h2
  obtain ⟨y, rfl, hy⟩ := factorIf_pos h0 (fun a w hw => frequencyDependent_pos hm hpos hw) h3
  simp only [product, Option.some.injEq, mul_one] at h6'
  subst h6'
  have hfin : ∀ {a : ℚ} {r : Option ℚ}, (if a < ref then Res.ok (factor a ref) else .ok (some 1)) = .ok r →
      ∃ s, r = some s ∧ s ≤ 1 := by
    intro a r h
    split at h
    · rename_i hlt
      simp only [Res.ok.injEq] at h
      subst h
      exact ⟨a / ref, by simp [factor, ne_of_gt h0], div_le_one_of_le₀ (le_of_lt hlt) (le_of_lt h0)⟩
    · simp only [Res.ok.injEq] at h
      exact ⟨1, h.symm, le_refl _⟩
  have hs : ∃ s, fs = some s ∧ s ≤ 1 := by
    unfold saturationIf saturation at h5
    rw [if_pos hB] at h5
    simp only at h5
    split at h5
    · split at h5
      · exact hfin h5
      · split at h5
        · exact hfin h5
        · exact hfin h5
        · simp at h5
        · simp at h5
    · split at h5
      · exact hfin h5
      · split at h5
        · exact hfin h5
        · exact hfin h5
        · simp at h5
        · simp at h5
    · simp only [Res.ok.injEq] at h5
      exact ⟨1, h5.symm, le_refl _⟩
  obtain ⟨s, rfl, hs⟩ := hs
  simp only [product, Option.some.injEq, mul_one] at h6
  subst h6
  have : 0 < ref * x * y := mul_pos (mul_pos h0 hx) hy
  calc ref * x * y * s ≤ ref * x * y * 1 := mul_le_mul_of_nonneg_left hs (le_of_lt this)
    _ = ref * x * y := mul_one _

/-- With an amplitude permeability of 60 at 40 A/m, a material of 80 falls to 60. -/
example : (initialPermeability plainEnv { name := "A", initial := .measured [⟨80, some 25, none, none⟩] }
      (some 25) (some 40) none none Caches.empty).2 = .ok 60 ∧
    (initialPermeability plainEnv { name := "A", initial := .measured [⟨80, some 25, none, none⟩] }
      (some 25) none none none Caches.empty).2 = .ok 80 := by
  constructor <;> decide +kernel

/-! ## C79: permeability is at least the one of vacuum -/

/-- C79 (partial): with measured permeabilities of at least one, permeability is at least one, as long as at most one of
temperature, frequency and bias is asked for and it does not come from the amplitude permeability. Missing: see
`permeability_below_vacuum`. -/
theorem permeability_at_least_one_partial (hm : m.initial = .measured points) (hge : ∀ p ∈ points, 1 ≤ p.value)
    {t h f : Option ℚ} (hone : (t = none ∧ h = none) ∨ (t = none ∧ f = none) ∨ (h = none ∧ f = none))
    (hb : h = none ∨ ∃ p ∈ points, ∃ x, p.bias = some x ∧ 0 < x) {v : ℚ}
    (hv : (initialPermeability env m t h f none Caches.empty).2 = .ok v) : 1 ≤ v := by
  by_cases hcu : ∃ x y, m.curie = some x ∧ t = some y ∧ x < y
  · obtain ⟨x, y, hx, hy, hxy⟩ := hcu
    rw [above_curie_is_one hv hx hy hxy]
  have hc : ∀ x y, m.curie = some x → t = some y → y ≤ x := fun x y hx hy =>
    not_lt.mp fun hlt => hcu ⟨x, y, hx, hy, hlt⟩
  rw [initial_points_iff hm hc] at hv
  by_cases hne : points = []
  · unfold fromPoints at hv
    rw [if_pos hne] at hv
    split at hv
    · simp only [M.pure, Res.ok.injEq, Option.some.injEq] at hv
      exact le_of_eq hv
    · simp [M.lift] at hv
  rw [fromPoints_ok hne] at hv
  obtain ⟨ref, ft, ff, fh, fs, h1, h2, h3, h4, h5, h6⟩ := hv
  have hr : 1 ≤ ref := reference_ge hm (le_refl _) hge h1
  have h0 : ref ≠ 0 := by linarith
  have e5 : fs = some 1 := by
    rcases hb with rfl | ⟨p, hp, x, hx, hx0⟩
    · rw [saturationIf_none, Res.ok.injEq] at h5
      exact h5.symm
    · have hB : hasBias points = true := by
        unfold hasBias
        rw [List.any_eq_true]
        exact ⟨p, hp, by rw [hx]; simpa using hx0⟩
      unfold saturationIf at h5
      rw [hB] at h5
      simp at h5
      exact h5.symm
  subst e5
  have key : ∀ {u : Bool} {x : Option ℚ} {d : ℚ → M ℚ} {r : Option ℚ}, (∀ a w, (d a Caches.empty).2 = .ok w → 1 ≤ w) →
      (factorIf u x d ref Caches.empty).2 = .ok r → r = some 1 ∨ ∃ w, 1 ≤ w ∧ r = factor w ref := by
    intro u x d r hd h
    rcases factorIf_ok h with ⟨a, w, _, _, hw, rfl⟩ | ⟨_, rfl⟩
    · exact Or.inr ⟨w, hd a w hw, rfl⟩
    · exact Or.inl rfl
  have k2 := key (fun a w hw => temperatureDependent_ge hw) h2
  have k3 := key (fun a w hw => frequencyDependent_ge hm (le_refl _) hge hw) h3
  have k4 := key (fun a w hw => biasDependent_ge hm (le_refl _) hge hw) h4
  have hall : ∀ w, 1 ≤ w → product ref [factor w ref, some 1, some 1, some 1] = some v → 1 ≤ v := by
    intro w hw h
    rw [(product_one h0).1, Option.some.injEq] at h
    linarith
  have hnone : product ref [some 1, some 1, some 1, some 1] = some v → 1 ≤ v := by
    intro h
    simp [product] at h
    linarith
  rcases hone with ⟨rfl, rfl⟩ | ⟨rfl, rfl⟩ | ⟨rfl, rfl⟩
  · rw [factorIf_none, Res.ok.injEq] at h2 h4
    subst h2 h4
    rcases k3 with rfl | ⟨w, hw, rfl⟩
    · exact hnone h6
    · rw [(product_one h0).2.1, Option.some.injEq] at h6
      linarith
  · rw [factorIf_none, Res.ok.injEq] at h2 h3
    subst h2 h3
    rcases k4 with rfl | ⟨w, hw, rfl⟩
    · exact hnone h6
    · rw [(product_one h0).2.2, Option.some.injEq] at h6
      linarith
  · rw [factorIf_none, Res.ok.injEq] at h3 h4
    subst h3 h4
    rcases k2 with rfl | ⟨w, hw, rfl⟩
    · exact hnone h6
    · exact hall w hw h6

/-- A material of permeability 2 that falls to 1 when heated and falls to 1 at high frequency. -/
def weak : Material :=
  { name := "W", initial := .measured [⟨2, some 25, some 1000, none⟩, ⟨1, some 100, some 1000, none⟩,
      ⟨1, some 25, some 1000000, none⟩, ⟨1, some 25, some 10000000, none⟩] }

/-- C79: no measured permeability is below one, but the factors of temperature and frequency are multiplied, and the
product is below one. -/
theorem permeability_below_vacuum :
    (initialPermeability plainEnv weak (some 100) none (some 1000000) none Caches.empty).2 = .ok (1 / 2) := by
  decide +kernel

example : (initialPermeability plainEnv weak (some 100) none none none Caches.empty).2 = .ok 1 ∧
    (initialPermeability plainEnv weak none none (some 1000000) none Caches.empty).2 = .ok 1 := by
  constructor <;> decide +kernel

/-! ## C80: complex permeability and loss factor -/

/-- C80: at a frequency where both parts were measured, complex permeability is the measured one (its real part, or one
if that was less). -/
theorem complex_at_measured (hi : Interpolates env) {derive : Material → Asking} {re im : List (Option ℚ × ℚ)}
    (hm : m.complex = some ⟨some re, some im⟩) (hre : Measured re) (him : Measured im) {f x y : ℚ}
    (hx : (some f, x) ∈ re) (hy : (some f, y) ∈ im) :
    (complexPermeability env derive m f Caches.empty).2 = .ok (max 1 x, y) := by
  obtain ⟨a, ha, has, hal, ham⟩ := complexCurve_measured hre
  obtain ⟨b, hb, hbs, hbl, hbm⟩ := complexCurve_measured him
  rw [complex_measured hm ha hb hre.1]
  unfold complexValue
  have h1 := (ham f x).mp hx
  have h2 := (hbm f y).mp hy
  have c1 := clampTo_mem has h1
  have c2 := clampTo_mem hbs h2
  have i1 := hi a has hal _ h1
  have i2 := hi b hbs hbl _ h2
  simp only at c1 c2 i1 i2
  rw [c1, c2, i1, i2]

/-- C80: beyond the measured frequencies, on either side, complex permeability does not change. -/
theorem complex_constant_outside {derive : Material → Asking} {re im : List (Option ℚ × ℚ)}
    (hm : m.complex = some ⟨some re, some im⟩) (hre : Measured re) (him : Measured im) {f g : ℚ}
    (h : (∀ p ∈ re ++ im, ∀ x, p.1 = some x → x ≤ f ∧ x ≤ g) ∨ (∀ p ∈ re ++ im, ∀ x, p.1 = some x → f ≤ x ∧ g ≤ x)) :
    (complexPermeability env derive m f Caches.empty).2 = (complexPermeability env derive m g Caches.empty).2 := by
  obtain ⟨a, ha, has, hal, ham⟩ := complexCurve_measured hre
  obtain ⟨b, hb, hbs, hbl, hbm⟩ := complexCurve_measured him
  rw [complex_measured hm ha hb hre.1, complex_measured hm ha hb hre.1]
  have ane : a ≠ [] := by rintro rfl; simp at hal
  have bne : b ≠ [] := by rintro rfl; simp at hbl
  have m1 : ∀ p ∈ a, (some p.1, p.2) ∈ re ++ im := fun p hp => List.mem_append_left _ ((ham _ _).mpr hp)
  have m2 : ∀ p ∈ b, (some p.1, p.2) ∈ re ++ im := fun p hp => List.mem_append_right _ ((hbm _ _).mpr hp)
  unfold complexValue
  rcases h with h | h
  · rw [clampTo_above has (fun p hp => (h _ (m1 p hp) _ rfl).1) (fun p hp => (h _ (m1 p hp) _ rfl).2) ane,
      clampTo_above hbs (fun p hp => (h _ (m2 p hp) _ rfl).1) (fun p hp => (h _ (m2 p hp) _ rfl).2) bne]
  · rw [clampTo_below has (fun p hp => (h _ (m1 p hp) _ rfl).1) (fun p hp => (h _ (m1 p hp) _ rfl).2) ane,
      clampTo_below hbs (fun p hp => (h _ (m2 p hp) _ rfl).1) (fun p hp => (h _ (m2 p hp) _ rfl).2) bne]

/-- C80: the real part is never below one, whatever is in the caches. -/
theorem complex_real_at_least_one {derive : Material → Asking} {f : ℚ} {c : Caches} {v : ℚ × ℚ}
    (h : (complexPermeability env derive m f c).2 = .ok v) : 1 ≤ v.1 := by
  unfold complexPermeability at h
  split at h
  · simp only [Res.ok.injEq] at h
    subst h
    exact le_max_left _ _
  · obtain ⟨p, _, h⟩ := bind_ok h
    split at h
    · simp [M.lift] at h
    · obtain ⟨re, _, h⟩ := bind_ok h
      obtain ⟨im, _, h⟩ := bind_ok h
      simp only [M.pure, Res.ok.injEq] at h
      subst h
      exact le_max_left _ _

/-- A material with both parts measured. -/
def choke : Material :=
  { name := "C", initial := .measured [⟨5000, none, none, none⟩],
    complex := some ⟨some [(some 10000, 5000), (some 100000, 4900), (some 1000000, 1500)],
      some [(some 10000, 10), (some 100000, 400), (some 1000000, 2000)]⟩ }

/-- The hypotheses hold of it. -/
example : Measured [(some 10000, 5000), (some 100000, 4900), (some 1000000, 1500)] ∧
    (complexPermeability plainEnv (fun _ => .fail .other) choke 100000 Caches.empty).2 = .ok (4900, 400) ∧
    (complexPermeability plainEnv (fun _ => .fail .other) choke 5000000 Caches.empty).2 = .ok (1500, 2000) := by
  refine ⟨⟨by decide, by decide, ?_⟩, by decide +kernel, by decide +kernel⟩
  simp only [List.pairwise_cons, List.mem_cons, List.not_mem_nil, or_false, forall_eq_or_imp, forall_eq,
    Option.some.injEq, List.Pairwise.nil, and_true, IsEmpty.forall_iff, implies_true]
  refine ⟨⟨?_, ?_⟩, ?_⟩ <;> rintro x y rfl rfl <;> norm_num [abs_of_neg]

/-- C80: with positive measured permeabilities, the series resistance of the core is not negative. -/
theorem resistance_nonneg (hpi : 0 ≤ env.twoPi) (hm : m.initial = .measured points) (hpos : ∀ p ∈ points, 0 < p.value)
    {f t L v : ℚ} (hf : 0 ≤ f) (hL : 0 ≤ L) (h : (seriesResistance env m f t L Caches.empty).2 = .ok v) : 0 ≤ v := by
  obtain ⟨mu, tan, h1, _, htan, rfl⟩ := resistance_ok h
  have hmu : 0 ≤ mu := by
    by_cases hcu : ∃ x, m.curie = some x ∧ x < t
    · obtain ⟨x, hx, hxy⟩ := hcu
      rw [above_curie_is_one h1 hx rfl hxy]
      exact zero_le_one
    rw [initial_points_iff hm (fun x y hx hy => by
      simp only [Option.some.injEq] at hy
      subst hy
      exact not_lt.mp fun hlt => hcu ⟨x, hx, hlt⟩)] at h1
    by_cases hne : points = []
    · unfold fromPoints at h1
      rw [if_pos hne] at h1
      split at h1
      · simp only [M.pure, Res.ok.injEq, Option.some.injEq] at h1
        rw [← h1]
        exact zero_le_one
      · simp [M.lift] at h1
    rw [fromPoints_ok hne] at h1
    obtain ⟨ref, ft, ff, fh, fs, g1, g2, g3, g4, g5, g6⟩ := h1
    rw [factorIf_none, Res.ok.injEq] at g3 g4
    rw [saturationIf_none, Res.ok.injEq] at g5
    subst g3 g4 g5
    have h0 := reference_pos hm hpos g1
    obtain ⟨x, rfl, hx⟩ := factorIf_pos h0 (fun a w hw => lt_of_lt_of_le one_pos (temperatureDependent_ge hw)) g2
    simp only [product, Option.some.injEq, mul_one] at g6
    rw [← g6]
    exact le_of_lt (mul_pos h0 hx)
  positivity

/-- C80: beyond the frequencies where the loss factor was measured, on either side, it is not extrapolated: the series
resistance is proportional to the frequency. -/
theorem resistance_proportional_outside {loss : List (Option ℚ × ℚ)} (hl : m.lossFactor = some loss) {f g t L v w : ℚ}
    (h : (∀ p ∈ loss, ∀ x, p.1 = some x → x ≤ f ∧ x ≤ g) ∨ (∀ p ∈ loss, ∀ x, p.1 = some x → f ≤ x ∧ g ≤ x))
    (hv : (seriesResistance env m f t L Caches.empty).2 = .ok v)
    (hw : (seriesResistance env m g t L Caches.empty).2 = .ok w) : v * g = w * f := by
  obtain ⟨mu, tan, h1, h2, _, rfl⟩ := resistance_ok hv
  obtain ⟨mu', tan', h1', h2', _, rfl⟩ := resistance_ok hw
  rw [h1, Res.ok.injEq] at h1'
  rw [lossFactor_outside hl h, h2', Res.ok.injEq] at h2
  subst h1' h2
  ring

/-- A material with a loss factor measured at two frequencies. -/
def filter : Material :=
  { name := "F", initial := .measured [⟨2000, none, none, none⟩],
    lossFactor := some [(some 10000, 1 / 1000000), (some 100000, 5 / 1000000)] }

/-- The hypotheses hold of it, with resistances that are not zero. -/
example : (seriesResistance { plainEnv with twoPi := 6 } filter 200000 25 1 Caches.empty).2 = .ok 12000 ∧
    (seriesResistance { plainEnv with twoPi := 6 } filter 400000 25 1 Caches.empty).2 = .ok 24000 := by
  constructor <;> decide +kernel

/-! ## C81: permeability is defined for every measured data -/

/-- C81 (partial): permeability is defined (a number or an exception) for every temperature, bias, frequency and flux
density, when the points used for each dependency of the material have that quantity, and frequencies and biases are not
exactly two. Missing: see `point_without_frequency_undefined`, `two_frequencies_undefined` and `two_biases_undefined`. -/
theorem permeability_defined_partial (hm : m.initial = .measured points) (hn : NoTie env.ambient points)
    (ha : ∀ b h t, env.amplitude m b h t ≠ .ub)
    (hT : (∃ p ∈ points, ∃ q ∈ points, p.temperature ≠ q.temperature) → ∀ p ∈ points,
      AtLeast (fun p => p.frequency) points p → AtLeast (fun p => p.bias) points p → p.temperature ≠ none)
    (hF : (∃ p ∈ points, ∃ x, p.frequency = some x ∧ env.quasiStatic < x) →
      (∀ p ∈ points, AtAmbient env.ambient points p ∧ AtLeast (fun p => p.bias) points p → p.frequency ≠ none) ∧
      OneOrThree (fun p => p.frequency)
        (fun p => AtAmbient env.ambient points p ∧ AtLeast (fun p => p.bias) points p) points)
    (hB : (∃ p ∈ points, ∃ x, p.bias = some x ∧ 0 < x) →
      (∀ p ∈ points, AtAmbient env.ambient points p ∧ AtLeast (fun p => p.frequency) points p → p.bias ≠ none) ∧
      OneOrThree (fun p => p.bias)
        (fun p => AtAmbient env.ambient points p ∧ AtLeast (fun p => p.frequency) points p) points)
    (t h f b : Option ℚ) : (initialPermeability env m t h f b Caches.empty).2 ≠ .ub := by
  intro hu
  have hu := initial_ub hm hu
  by_cases hne : points = []
  · unfold fromPoints at hu
    rw [if_pos hne] at hu
    split at hu <;> simp [M.pure, M.lift] at hu
  have dT : hasTemperature points = true → ∀ x, (temperatureDependent env m x Caches.empty).2 ≠ .ub := by
    intro ht x hub
    have hall := hT (by
      unfold hasTemperature at ht
      cases hl : points.filterMap fun p => p.temperature with
      | nil => rw [hl] at ht; simp at ht
      | cons a rest =>
        rw [hl] at ht
        simp only [List.any_eq_true, decide_eq_true_eq] at ht
        obtain ⟨u, hu', hd⟩ := ht
        obtain ⟨p, hp, hpa⟩ := List.mem_filterMap.mp (show a ∈ points.filterMap fun p => p.temperature by rw [hl]; simp)
        obtain ⟨q, hq, hqu⟩ := List.mem_filterMap.mp (show u ∈ points.filterMap fun p => p.temperature by
          rw [hl]; exact List.mem_cons_of_mem _ hu')
        refine ⟨p, hp, q, hq, ?_⟩
        rw [hpa, hqu]
        intro he
        simp only [Option.some.injEq] at he
        rw [he, sub_self, abs_zero] at hd
        norm_num at hd)
    by_cases hte : temperaturePoints env points = []
    · unfold temperatureDependent at hub
      rw [hm] at hub
      cases hpts : points with
      | nil => exact hne hpts
      | cons a rest =>
        rw [hpts] at hub hte
        simp only [hte, if_true] at hub
        simp at hub
    · obtain ⟨l, h1, h2, _, _, _⟩ := abscissas_some (fun p => p.temperature) (temperaturePoints env points)
        fun p' h' => by
          obtain ⟨g1, g2, g3⟩ := mem_temperaturePoints.mp h'
          exact hall p' g1 g2 g3
      have hl : l ≠ [] := by
        rintro rfl
        exact hte (List.eq_nil_of_length_eq_zero h2.symm)
      obtain ⟨k, hk⟩ := temperatureCurve_ok hl
      rw [temperatureDependent_eq hm hte h1 hk] at hub
      simp at hub
  have dF : hasFrequency env points = true → ∀ x, (frequencyDependent env m x Caches.empty).2 ≠ .ub := by
    intro ht x hub
    obtain ⟨hall, h13⟩ := hF (by
      unfold hasFrequency at ht
      rw [List.any_eq_true] at ht
      obtain ⟨p, hp, hpx⟩ := ht
      rw [Option.any_eq_true] at hpx
      obtain ⟨y, hy, hlt⟩ := hpx
      exact ⟨p, hp, y, hy, by simpa using hlt⟩)
    by_cases hfe : frequencyPoints env points = []
    · unfold frequencyDependent frequencyPointsOf at hub
      rw [hm] at hub
      cases hpts : points with
      | nil => exact hne hpts
      | cons a rest =>
        rw [hpts] at hub hfe
        simp only [hfe, if_true] at hub
        simp at hub
    · obtain ⟨l, k, h1, hk⟩ := otherCurve_defined (fun p => mem_frequencyPoints hn) hall h13 hfe
      rw [frequencyDependent_eq hm hfe h1 hk] at hub
      simp at hub
  have dB : hasBias points = true → ∀ x, (biasDependent env m x Caches.empty).2 ≠ .ub := by
    intro ht x hub
    obtain ⟨hall, h13⟩ := hB (by
      unfold hasBias at ht
      rw [List.any_eq_true] at ht
      obtain ⟨p, hp, hpx⟩ := ht
      rw [Option.any_eq_true] at hpx
      obtain ⟨y, hy, hlt⟩ := hpx
      exact ⟨p, hp, y, hy, by simpa using hlt⟩)
    by_cases hfe : biasPoints env points = []
    · unfold biasDependent at hub
      rw [hm] at hub
      cases hpts : points with
      | nil => exact hne hpts
      | cons a rest =>
        rw [hpts] at hub hfe
        simp only [hfe, if_true] at hub
        simp at hub
    · obtain ⟨l, k, h1, hk⟩ := otherCurve_defined (fun p => mem_biasPoints hn) hall h13 hfe
      rw [biasDependent_eq hm hfe h1 hk] at hub
      simp at hub
  rcases fromPoints_ub hne hu with h' | ⟨ref, h'⟩ | ⟨ref, h'⟩ | ⟨ref, h'⟩ | ⟨ref, h'⟩
  · unfold reference at h'
    split at h'
    · rename_i hh
      exact dT hh _ h'
    · split at h'
      · rename_i hh
        exact dF hh _ h'
      · split at h'
        · rename_i hh
          exact dB hh _ h'
        · simp [M.pure] at h'
  · obtain ⟨hh, x, _, hx⟩ := factorIf_ub h'
    exact dT hh x hx
  · obtain ⟨hh, x, _, hx⟩ := factorIf_ub h'
    exact dF hh x hx
  · obtain ⟨hh, x, _, hx⟩ := factorIf_ub h'
    exact dB hh x hx
  · unfold saturationIf at h'
    split at h'
    · unfold saturation at h'
      simp only at h'
      have fin : ∀ {a : ℚ}, (if a < ref then Res.ok (factor a ref) else .ok (some 1)) ≠ .ub := by
        intro a
        split <;> simp
      split at h'
      · split at h'
        · exact fin h'
        · split at h'
          · exact fin h'
          · exact fin h'
          · simp at h'
          · rename_i hub
            exact ha _ _ _ hub
      · split at h'
        · exact fin h'
        · split at h'
          · exact fin h'
          · exact fin h'
          · simp at h'
          · rename_i hub
            exact ha _ _ _ hub
      · simp at h'
    · simp at h'

/-- C81: two points with a frequency and one without leave permeability undefined. -/
theorem point_without_frequency_undefined :
    (initialPermeability plainEnv { name := "X", initial := .measured [⟨100, none, none, none⟩,
      ⟨100, none, some 10000, none⟩, ⟨90, none, some 100000, none⟩, ⟨80, none, some 1000000, none⟩] }
      none none none none Caches.empty).2 = .ub := by
  decide +kernel

/-- C81: two frequencies leave permeability undefined. -/
theorem two_frequencies_undefined :
    (initialPermeability plainEnv { name := "X", initial := .measured [⟨100, none, some 10000, none⟩,
      ⟨90, none, some 100000, none⟩] } none none none none Caches.empty).2 = .ub := by
  decide +kernel

/-- C81: two biases leave permeability undefined. -/
theorem two_biases_undefined :
    (initialPermeability plainEnv { name := "X", initial := .measured [⟨60, none, none, some 0⟩,
      ⟨30, none, none, some 4000⟩] } none none none none Caches.empty).2 = .ub := by
  decide +kernel

/-- C81: one, three or more frequencies are fine, and so are two temperatures. -/
example : (initialPermeability plainEnv powder none none none none Caches.empty).2 ≠ .ub ∧
    (initialPermeability plainEnv oldFerrite none none none none Caches.empty).2 ≠ .ub ∧
    (initialPermeability plainEnv { name := "X", initial := .measured [⟨100, none, some 10000, none⟩] }
      none none none none Caches.empty).2 ≠ .ub := by
  refine ⟨?_, ?_, ?_⟩ <;> decide +kernel

end Verif.Permeability
