import Verif.CoreTemp.Model
import Verif.CoreData.Props
import Mathlib.Tactic.NormNum
import Mathlib.Tactic.Linarith
import Mathlib.Tactic.FieldSimp
import Mathlib.Algebra.Order.Field.Rat

/-!
# Properties of the temperature of the core and of the filters by size and temperature
-/

set_option linter.unusedSectionVars false
set_option linter.unusedSimpArgs false

namespace Verif.CoreTemp

/-! ## The models -/

/-- What each model takes for the size of a core: its volume, the product of the areas of its first column and window, or its surface. -/
def Measure : Model → Core → ℝ → Prop
  | .maniktala, c, x => x = c.volume
  | .tdk, c, x => x = c.volume
  | .dixon, c, x => ∃ a w as ws, c.columns = a :: as ∧ c.windows = some w :: ws ∧ x = a * w
  | .kazimierczuk, c, x => x = 2 * (c.depth * c.height + c.height * c.width + c.width * c.depth)
  | .amidon, c, x => x = 2 * (c.depth * c.height + c.height * c.width + c.width * c.depth)

/-- The models in which the rise is proportional to the losses. -/
def Linear (m : Model) : Prop := m = .maniktala ∨ m = .tdk ∨ m = .dixon

/-- The factor of a linear model, and the exponent and the factor of the others, for some measure. -/
noncomputable def factor : Model → ℝ → ℝ
  | .maniktala, x => 53 * (x * 1000000) ^ (-0.54 : ℝ)
  | .tdk, x => 1 / Real.sqrt (x * 1000000)
  | .dixon, x => 23 * (x * 100000000) ^ (-0.37 : ℝ)
  | .kazimierczuk, x => 0.1 / x
  | .amidon, x => 0.1 / x

noncomputable def exponent : Model → ℝ
  | .kazimierczuk => 0.826
  | .amidon => 0.833
  | _ => 1

theorem factor_pos (m : Model) {x : ℝ} (hx : 0 < x) : 0 < factor m x := by
  cases m <;> simp only [factor] <;> positivity

theorem factor_anti (m : Model) {x y : ℝ} (hx : 0 < x) (h : x < y) : factor m y < factor m x := by
  have hy : 0 < y := hx.trans h
  cases m <;> simp only [factor]
  · exact div_lt_div_of_pos_left (by norm_num) hx h
  · have := Real.rpow_lt_rpow_of_neg (show 0 < x * 1000000 by positivity) (show x * 1000000 < y * 1000000 by linarith) (show (-0.54 : ℝ) < 0 by norm_num)
    linarith
  · exact div_lt_div_of_pos_left (by norm_num) (Real.sqrt_pos.2 (by positivity)) (Real.sqrt_lt_sqrt (by positivity) (by linarith))
  · have := Real.rpow_lt_rpow_of_neg (show 0 < x * 100000000 by positivity) (show x * 100000000 < y * 100000000 by linarith)
      (show (-0.37 : ℝ) < 0 by norm_num)
    linarith
  · exact div_lt_div_of_pos_left (by norm_num) hx h

theorem exponent_pos (m : Model) : 0 < exponent m := by cases m <;> simp only [exponent] <;> norm_num

/-- The rise, for losses that are not negative. -/
theorem rise_eq (m : Model) (c : Core) (x p : ℝ) (hm : Measure m c x) (hx : 0 < x) (hp : 0 ≤ p) :
    rise m c p = .ok ((p * factor m x) ^ exponent m) := by
  have pow0 : ∀ {b e : ℝ}, 0 ≤ b → 0 < e → power b e = .ok (b ^ e) := by
    intro b e hb he
    unfold power
    rcases hb.lt_or_eq with h | h
    · rw [if_pos h]
    · subst h
      rw [if_neg (lt_irrefl _), if_pos ⟨rfl, he⟩, Real.zero_rpow he.ne']
  cases m with
  | maniktala =>
    simp only [Measure] at hm
    subst hm
    simp only [rise, power, if_pos (show 0 < c.volume * 1000000 by positivity), Out.bind, factor, exponent, Real.rpow_one]
  | tdk =>
    simp only [Measure] at hm
    subst hm
    simp only [rise, if_pos (show 0 < c.volume * 1000000 by positivity), factor, exponent, Real.rpow_one]
  | dixon =>
    obtain ⟨a, w, as, ws, e1, e2, rfl⟩ := hm
    simp only [rise, areaProduct, e1, e2, Out.bind, power, if_pos (show 0 < a * w * 100000000 by positivity), factor, exponent, Real.rpow_one]
  | kazimierczuk =>
    simp only [Measure] at hm
    have hs : surface c = x := by rw [hm]; unfold surface; ring
    simp only [rise, ratio, hs, if_neg hx.ne', Out.bind]
    rw [pow0 (by positivity) (by norm_num)]
    simp only [factor, exponent]
    congr 2
    ring
  | amidon =>
    simp only [Measure] at hm
    have hs : surface c = x := by rw [hm]; unfold surface; ring
    simp only [rise, ratio, hs, if_neg (show x * 10000 ≠ 0 by positivity), Out.bind]
    rw [pow0 (by positivity) (by norm_num)]
    simp only [factor, exponent]
    congr 2
    field_simp
    ring

theorem temperature_eq (m : Model) (c : Core) (x p a : ℝ) (hm : Measure m c x) (hx : 0 < x) (hp : 0 ≤ p) :
    temperature m (some c) p a = .ok (output p a ((p * factor m x) ^ exponent m)) := by
  unfold temperature
  simp only [rise_eq m c x p hm hx hp, Out.bind]

/-- **C309.** Without losses the core is at the ambient temperature, with every model. -/
theorem at_ambient (m : Model) (c : Core) (x a : ℝ) (hm : Measure m c x) (hx : 0 < x) : temperature m (some c) 0 a = .ok ⟨0, a, a⟩ := by
  rw [temperature_eq m c x 0 a hm hx le_rfl]
  simp [output, Real.zero_rpow (exponent_pos m).ne']

/-- **C309.** With losses it is hotter, and the more losses the hotter. -/
theorem hotter (m : Model) (c : Core) (x a p q : ℝ) (hm : Measure m c x) (hx : 0 < x) (hp : 0 ≤ p) (hpq : p < q) :
    ∃ o o', temperature m (some c) p a = .ok o ∧ temperature m (some c) q a = .ok o' ∧ a ≤ o.maximum ∧ o.maximum < o'.maximum := by
  refine ⟨_, _, temperature_eq m c x p a hm hx hp, temperature_eq m c x q a hm hx (hp.trans hpq.le), ?_, ?_⟩
  · have : 0 ≤ (p * factor m x) ^ exponent m := Real.rpow_nonneg (mul_nonneg hp (factor_pos m hx).le) _
    simp only [output]
    linarith
  · have := Real.rpow_lt_rpow (mul_nonneg hp (factor_pos m hx).le) (mul_lt_mul_of_pos_right hpq (factor_pos m hx)) (exponent_pos m)
    simp only [output]
    linarith

/-- **C309.** The thermal resistance is positive and times the losses is the rise; the initial temperature is the ambient one. -/
theorem resistance_rise (m : Model) (c : Core) (x p a : ℝ) (hm : Measure m c x) (hx : 0 < x) (hp : 0 < p) :
    ∃ o, temperature m (some c) p a = .ok o ∧ 0 < o.resistance ∧ o.resistance * p = o.maximum - o.initial ∧ o.initial = a := by
  refine ⟨_, temperature_eq m c x p a hm hx hp.le, ?_, ?_, rfl⟩
  · simp only [output, if_pos hp, add_sub_cancel_left]
    exact div_pos (Real.rpow_pos_of_pos (mul_pos hp (factor_pos m hx)) _) hp
  · simp only [output, if_pos hp]
    field_simp

/-- **C309.** A hotter ambient makes the core hotter by as much, whatever the core, the model and the losses. -/
theorem ambient_shifts (m : Model) (c : Option Core) (p a d : ℝ) (o : Output) :
    temperature m c p a = .ok o ↔ temperature m c p (a + d) = .ok ⟨o.resistance, o.initial + d, o.maximum + d⟩ := by
  unfold temperature
  cases c with
  | none => simp
  | some c =>
    simp only
    cases rise m c p with
    | ok r =>
      obtain ⟨r1, r2, r3⟩ := o
      simp only [Out.bind, Out.ok.injEq, output, Output.mk.injEq, add_sub_cancel_left]
      constructor
      · rintro ⟨h1, h2, h3⟩; exact ⟨h1, by linarith, by linarith⟩
      · rintro ⟨h1, h2, h3⟩; exact ⟨h1, by linarith, by linarith⟩
    | throws => simp [Out.bind]
    | undefined => simp [Out.bind]
    | notFinite => simp [Out.bind]

/-- **C310.** With the same losses a bigger core, in the measure of the model, is cooler. -/
theorem bigger_cooler (m : Model) (c d : Core) (x y p a : ℝ) (hc : Measure m c x) (hd : Measure m d y) (hx : 0 < x) (hxy : x < y) (hp : 0 < p) :
    ∃ o o', temperature m (some c) p a = .ok o ∧ temperature m (some d) p a = .ok o' ∧ o'.maximum < o.maximum := by
  refine ⟨_, _, temperature_eq m c x p a hc hx hp.le, temperature_eq m d y p a hd (hx.trans hxy) hp.le, ?_⟩
  have := Real.rpow_lt_rpow (mul_nonneg hp.le (factor_pos m (hx.trans hxy)).le) (mul_lt_mul_of_pos_left (factor_anti m hx hxy) hp) (exponent_pos m)
  simp only [output]
  linarith

/-- **C310.** In three of the models the thermal resistance is that of the core, whatever the losses. -/
theorem linear_resistance (m : Model) (hl : Linear m) (c : Core) (x : ℝ) (hm : Measure m c x) (hx : 0 < x) :
    ∃ R, 0 < R ∧ ∀ p a, 0 < p → ∃ o, temperature m (some c) p a = .ok o ∧ o.resistance = R := by
  have he : exponent m = 1 := by rcases hl with rfl | rfl | rfl <;> rfl
  refine ⟨factor m x, factor_pos m hx, fun p a hp => ⟨_, temperature_eq m c x p a hm hx hp.le, ?_⟩⟩
  simp only [output, if_pos hp, add_sub_cancel_left, he, Real.rpow_one]
  field_simp

/-- **C310.** In the other two it falls as the losses grow. -/
theorem power_resistance (m : Model) (hl : ¬Linear m) (c : Core) (x p q a : ℝ) (hm : Measure m c x) (hx : 0 < x) (hp : 0 < p) (hpq : p < q) :
    ∃ o o', temperature m (some c) p a = .ok o ∧ temperature m (some c) q a = .ok o' ∧ o'.resistance < o.resistance := by
  have he : exponent m < 1 := by
    cases m with
    | kazimierczuk => simp only [exponent]; norm_num
    | amidon => simp only [exponent]; norm_num
    | maniktala => exact absurd (Or.inl rfl) hl
    | tdk => exact absurd (Or.inr (Or.inl rfl)) hl
    | dixon => exact absurd (Or.inr (Or.inr rfl)) hl
  have hq := hp.trans hpq
  refine ⟨_, _, temperature_eq m c x p a hm hx hp.le, temperature_eq m c x q a hm hx hq.le, ?_⟩
  have key : ∀ t : ℝ, 0 < t → (t * factor m x) ^ exponent m / t = factor m x ^ exponent m * t ^ (exponent m - 1) := by
    intro t ht
    rw [Real.mul_rpow ht.le (factor_pos m hx).le, Real.rpow_sub ht, Real.rpow_one]
    ring
  simp only [output, if_pos hp, if_pos hq, add_sub_cancel_left, key p hp, key q hq]
  exact mul_lt_mul_of_pos_left (Real.rpow_lt_rpow_of_neg hp hpq (by linarith)) (Real.rpow_pos_of_pos (factor_pos m hx) _)

/-- **C310.** Between the two: that of Amidon is the higher one exactly when there are at least 10 W for every square metre of surface. -/
theorem amidon_above (c : Core) (x p : ℝ) (hm : Measure .amidon c x) (hx : 0 < x) (hp : 0 < p) :
    ∃ r r', rise .kazimierczuk c p = .ok r ∧ rise .amidon c p = .ok r' ∧ (r ≤ r' ↔ 10 * x ≤ p) := by
  refine ⟨_, _, rise_eq .kazimierczuk c x p hm hx hp.le, rise_eq .amidon c x p hm hx hp.le, ?_⟩
  have hb : 0 < p * (0.1 / x) := by positivity
  have hone : 1 ≤ p * (0.1 / x) ↔ 10 * x ≤ p := by
    rw [show p * (0.1 / x) = p * 0.1 / x by ring, le_div_iff₀ hx]
    constructor <;> intro h <;> linarith
  rw [← hone]
  simp only [factor, exponent]
  constructor
  · intro h
    by_contra hlt
    rw [not_le] at hlt
    exact absurd h (not_le.2 (Real.rpow_lt_rpow_of_exponent_gt hb hlt (by norm_num)))
  · intro h
    exact Real.rpow_le_rpow_of_exponent_le h (by norm_num)

/-- **C310.** That of TDK is less than a thirtieth of that of Maniktala for every core up to a cubic metre. -/
theorem tdk_far_below (c : Core) (p : ℝ) (hv : 0 < c.volume) (hv1 : c.volume ≤ 1) (hp : 0 < p) :
    ∃ r r', rise .tdk c p = .ok r ∧ rise .maniktala c p = .ok r' ∧ 30 * r < r' := by
  refine ⟨_, _, rise_eq .tdk c c.volume p rfl hv hp.le, rise_eq .maniktala c c.volume p rfl hv hp.le, ?_⟩
  simp only [factor, exponent, Real.rpow_one]
  set x := c.volume * 1000000 with hxdef
  have hx : 0 < x := by positivity
  have hx1 : x ≤ 1000000 := by rw [hxdef]; linarith
  have hs : 1 / Real.sqrt x = x ^ (-(1 / 2) : ℝ) := by
    rw [Real.sqrt_eq_rpow, Real.rpow_neg hx.le, one_div]
  have hsplit : x ^ (-0.54 : ℝ) = x ^ (-(1 / 2) : ℝ) * x ^ (-(1 / 25) : ℝ) := by
    rw [← Real.rpow_add hx]
    norm_num
  have hroot : x ^ (1 / 25 : ℝ) < 53 / 30 := by
    calc x ^ (1 / 25 : ℝ) ≤ (1000000 : ℝ) ^ (1 / 25 : ℝ) := Real.rpow_le_rpow hx.le hx1 (by norm_num)
      _ < ((53 / 30 : ℝ) ^ (25 : ℕ)) ^ (1 / 25 : ℝ) := Real.rpow_lt_rpow (by norm_num) (by norm_num) (by norm_num)
      _ = 53 / 30 := by
        rw [← Real.rpow_natCast, ← Real.rpow_mul (by norm_num)]
        norm_num
  have hinv : 30 / 53 < x ^ (-(1 / 25) : ℝ) := by
    rw [Real.rpow_neg hx.le, lt_inv_comm₀ (by norm_num) (Real.rpow_pos_of_pos hx _)]
    norm_num at hroot ⊢
    exact hroot
  have hy : 0 < x ^ (-(1 / 2) : ℝ) := Real.rpow_pos_of_pos hx _
  rw [hs, hsplit]
  have h1 : 30 * x ^ (-(1 / 2) : ℝ) < 53 * (x ^ (-(1 / 2) : ℝ) * x ^ (-(1 / 25) : ℝ)) := by
    have := mul_lt_mul_of_pos_left hinv hy
    linarith
  have := mul_lt_mul_of_pos_left h1 hp
  linarith

/-- **C309.** Negative losses: below the ambient temperature in the linear models, not a number in the others. -/
theorem negative_losses (m : Model) (c : Core) (x p a : ℝ) (hm : Measure m c x) (hx : 0 < x) (hp : p < 0) :
    (Linear m → ∃ o, temperature m (some c) p a = .ok o ∧ o.maximum < a ∧ o.resistance = 0) ∧ (¬Linear m → temperature m (some c) p a = .notFinite) := by
  constructor
  · intro hl
    have hr : rise m c p = .ok (p * factor m x) := by
      rcases hl with rfl | rfl | rfl
      · simp only [Measure] at hm
        subst hm
        simp only [rise, power, if_pos (show 0 < c.volume * 1000000 by positivity), Out.bind, factor]
      · simp only [Measure] at hm
        subst hm
        simp only [rise, if_pos (show 0 < c.volume * 1000000 by positivity), factor]
      · obtain ⟨u, w, us, ws, e1, e2, rfl⟩ := hm
        simp only [rise, areaProduct, e1, e2, Out.bind, power, if_pos (show 0 < u * w * 100000000 by positivity), factor]
    refine ⟨output p a (p * factor m x), by unfold temperature; simp only [hr, Out.bind], ?_, ?_⟩
    · have := mul_neg_of_neg_of_pos hp (factor_pos m hx)
      simp only [output]
      linarith
    · simp only [output, if_neg (not_lt.2 hp.le)]
  · intro hl
    have hneg : ∀ b e : ℝ, b < 0 → power b e = .notFinite := by
      intro b e hb
      unfold power
      rw [if_neg (not_lt.2 hb.le), if_neg (fun h => hb.ne h.1)]
    unfold temperature
    cases m with
    | kazimierczuk =>
      simp only [Measure] at hm
      have hs : surface c = x := by rw [hm]; unfold surface; ring
      simp only [rise, ratio, hs, if_neg hx.ne', Out.bind]
      rw [hneg _ _ (div_neg_of_neg_of_pos (by linarith) hx)]
    | amidon =>
      simp only [Measure] at hm
      have hs : surface c = x := by rw [hm]; unfold surface; ring
      simp only [rise, ratio, hs, if_neg (show x * 10000 ≠ 0 by positivity), Out.bind]
      rw [hneg _ _ (div_neg_of_neg_of_pos (by linarith) (by positivity))]
    | maniktala => exact absurd (Or.inl rfl) hl
    | tdk => exact absurd (Or.inr (Or.inl rfl)) hl
    | dixon => exact absurd (Or.inr (Or.inr rfl)) hl

/-- **C309.** A core that has not been processed is refused; that of Dixon also refuses a window without area, and is undefined without columns or
windows. -/
theorem refused (m : Model) (p a : ℝ) : temperature m none p a = .throws ∧
    (∀ c : Core, c.columns ≠ [] → c.windows.head? = some none → temperature .dixon (some c) p a = .throws) ∧
    ∀ c : Core, (c.columns = [] ∨ c.windows = []) → temperature .dixon (some c) p a = .undefined := by
  refine ⟨rfl, ?_, ?_⟩
  · intro c h1 h2
    obtain ⟨u, us, e⟩ := List.exists_cons_of_ne_nil h1
    cases hw : c.windows with
    | nil => rw [hw] at h2; simp at h2
    | cons w ws =>
      rw [hw] at h2
      simp only [List.head?_cons, Option.some.injEq] at h2
      subst h2
      simp only [temperature, rise, areaProduct, e, hw, Out.bind]
  · intro c h
    cases hc : c.columns with
    | nil => simp only [temperature, rise, areaProduct, hc, Out.bind]
    | cons u us =>
      rcases h with h | h
      · rw [hc] at h; simp at h
      · simp only [temperature, rise, areaProduct, hc, h, Out.bind]

/-- A core of 10 cm³. -/
noncomputable def core : Core := ⟨1 / 100000, 4 / 100, 4 / 100, 1 / 100, [1 / 10000], [some (1 / 10000)]⟩

/-- Case of the hypotheses above. -/
example : (∀ m, ∃ x, 0 < x ∧ Measure m core x) ∧ 0 < core.volume ∧ core.volume ≤ 1 := by
  refine ⟨?_, by norm_num [core], by norm_num [core]⟩
  intro m
  cases m with
  | kazimierczuk => exact ⟨_, by norm_num [core], rfl⟩
  | maniktala => exact ⟨_, by norm_num [core], rfl⟩
  | tdk => exact ⟨_, by norm_num [core], rfl⟩
  | dixon => exact ⟨1 / 10000 * (1 / 10000), by norm_num, _, _, _, _, rfl, rfl, rfl⟩
  | amidon => exact ⟨_, by norm_num [core], rfl⟩

/-! ## The filters -/

variable {K : Type} [Field K] [LinearOrder K] [IsStrictOrderedRing K]

/-- The temperature of a magnetic with its own losses. -/
def hot (p : Part K) : K := p.ambient + p.rise p.noProximity

/-- The score of a magnetic on its own. -/
def Own (p : Part K) : Filter → K
  | .losses => p.losses
  | .lossesNoProximity => p.noProximity
  | .volume => p.width * p.height * p.depth
  | .area => p.width * p.depth
  | .height => p.height
  | .temperatureRise => hot p
  | .lossesTimesVolume => p.losses * (p.width * p.height * p.depth)
  | .volumeTimesTemperature => p.width * p.height * p.depth * hot p
  | .lossesTimesVolumeTimesTemperature => p.losses * (p.width * p.height * p.depth) * hot p
  | .noProximityTimesVolume => p.noProximity * (p.width * p.height * p.depth)
  | .noProximityTimesVolumeTimesTemperature => p.noProximity * (p.width * p.height * p.depth) * hot p

/-- What is kept is what the magnetics would have on their own. -/
def Consistent (memo : Memo K) (ps : List (Part K)) : Prop := ∀ p ∈ ps, ∀ f v, memo f (name p) = some v → v = Own p f

theorem recall_own {memo : Memo K} {p : Part K} (h : ∀ f v, memo f (name p) = some v → v = Own p f) (f : Filter) {own : K} (ho : own = Own p f) :
    recall memo p f own = Own p f := by
  unfold recall
  cases hm : memo f (name p) with
  | none => simpa using ho
  | some v => simpa using h f v hm

theorem score_own {memo : Memo K} {p : Part K} (h : ∀ f v, memo f (name p) = some v → v = Own p f) (f : Filter) : score memo p f = Own p f := by
  have h1 := recall_own h .losses (own := p.losses) rfl
  have h2 := recall_own h .lossesNoProximity (own := p.noProximity) rfl
  have h3 : temperatureScore memo p = hot p := by
    unfold temperatureScore hot
    rw [h2]; rfl
  have h4 := recall_own h .temperatureRise (own := temperatureScore memo p) h3
  cases f <;> simp only [score, Own, h1, h2, h4, volume] <;> first | rfl | exact h3

theorem keep_consistent {memo : Memo K} {ps : List (Part K)} (h : Consistent memo ps) {p : Part K} (hp : p ∈ ps)
    (hn : ∀ q ∈ ps, name q = name p → q = p) (f : Filter) : Consistent (keep memo f (name p) (Own p f)) ps := by
  intro q hq g v hv
  simp only [keep] at hv
  by_cases h2 : Own p f ≠ -1 ∧ g = f ∧ name q = name p
  · rw [if_pos h2] at hv
    rw [hn q hq h2.2.2, h2.2.1]
    simpa using hv.symm
  · rw [if_neg h2] at hv
    exact h q hq g v hv

theorem run_own (l : List (Part K × Filter)) (memo : Memo K) (ps : List (Part K)) (hps : ∀ e ∈ l, e.1 ∈ ps) (h : Consistent memo ps)
    (hn : ∀ p ∈ ps, ∀ q ∈ ps, name q = name p → q = p) : run memo l = l.map fun e => Own e.1 e.2 := by
  induction l generalizing memo with
  | nil => rfl
  | cons e l ih =>
    obtain ⟨p, f⟩ := e
    have hp := hps (p, f) List.mem_cons_self
    have hs := score_own (h p hp) f
    simp only [run, List.map_cons, hs]
    rw [ih _ (fun e he => hps e (List.mem_cons_of_mem _ he)) (keep_consistent h hp (hn p hp) f)]

/-- **C311.** From nothing kept, if no two magnetics have the same reference, every score is that of the magnetic on its own, whatever the order of
magnetics and filters and however often each is asked for. -/
theorem scores_own (l : List (Part K × Filter)) (hn : ∀ e ∈ l, ∀ e' ∈ l, name e.1 = name e'.1 → e.1 = e'.1) :
    run cleared l = l.map fun e => Own e.1 e.2 := by
  refine run_own l cleared (l.map Prod.fst) (fun e he => List.mem_map.2 ⟨e, he, rfl⟩) ?_ ?_
  · intro p _ f v hv
    simp [cleared] at hv
  · intro p hp q hq e
    obtain ⟨x, hx, rfl⟩ := List.mem_map.1 hp
    obtain ⟨y, hy, rfl⟩ := List.mem_map.1 hq
    exact hn y hy x hx e

/-- Two magnetics without reference. -/
def small : Part ℚ := ⟨none, 1, 1, 1, 5, 4, fun p => 10 * p, 25⟩
def large : Part ℚ := ⟨none, 1, 2, 1, 1, 1, fun p => 10 * p, 25⟩

/-- Case of `scores_own`. -/
example : ∀ e ∈ [({ small with reference := some "A" }, Filter.losses), ({ large with reference := some "B" }, Filter.lossesTimesVolume)],
    ∀ e' ∈ [({ small with reference := some "A" }, Filter.losses), ({ large with reference := some "B" }, Filter.lossesTimesVolume)],
      name e.1 = name e'.1 → e.1 = e'.1 := by
  intro e he e' he'
  simp only [List.mem_cons, List.not_mem_nil, or_false] at he he'
  rcases he with rfl | rfl <;> rcases he' with rfl | rfl <;> simp [name]

/-- **C311.** Magnetics without reference share one, and a magnetic may be scored with the losses of another: here 10 instead of 2. -/
theorem shared_reference : run cleared [(small, .losses), (large, .lossesTimesVolume)] = [5, 10] ∧ Own large .lossesTimesVolume = 2 := by decide +kernel

/-- **C311.** So may one with the same reference in other inputs, until what is kept is cleared. -/
theorem stale_inputs : ∃ p q : Part ℚ, p.reference = q.reference ∧ p.reference ≠ none ∧ p.ambient ≠ q.ambient ∧
    run cleared [(p, .temperatureRise), (q, .volumeTimesTemperature)] = [35, 35] ∧ Own q .volumeTimesTemperature = 95 :=
  ⟨⟨some "A", 1, 1, 1, 1, 1, fun p => 10 * p, 25⟩, ⟨some "A", 1, 1, 1, 1, 1, fun p => 10 * p, 85⟩, by decide +kernel, by decide +kernel, by decide +kernel,
    by decide +kernel, by decide +kernel⟩

/-- **C312.** The filter of temperature rise orders magnetics by their rise, if they are in the same ambient. -/
theorem rise_order (p q : Part K) (h : p.ambient = q.ambient) : Own p .temperatureRise ≤ Own q .temperatureRise ↔ p.rise p.noProximity ≤ q.rise q.noProximity := by
  simp only [Own, hot, h, add_le_add_iff_left]

/-- **C312.** The product of volume and temperature rise orders them by that product at an ambient of 0 °C, -/
theorem product_order_partial (p q : Part K) (hp : p.ambient = 0) (hq : q.ambient = 0) :
    Own p .volumeTimesTemperature ≤ Own q .volumeTimesTemperature ↔
      p.width * p.height * p.depth * p.rise p.noProximity ≤ q.width * q.height * q.depth * q.rise q.noProximity := by
  simp only [Own, hot, hp, hq, zero_add]

/-- **C312.** but elsewhere it is the temperature that counts, and the order depends on the ambient. -/
theorem ambient_reverses : ∃ p q : ℚ → Part ℚ, (∀ a, (p a).ambient = a ∧ (q a).ambient = a) ∧ (∀ a b, (p a).rise = (p b).rise ∧ (q a).rise = (q b).rise) ∧
    Own (q 0) .volumeTimesTemperature < Own (p 0) .volumeTimesTemperature ∧ Own (p 85) .volumeTimesTemperature < Own (q 85) .volumeTimesTemperature :=
  ⟨fun a => ⟨some "A", 1, 1, 1, 4, 4, fun p => 10 * p, a⟩, fun a => ⟨some "B", 1, 2, 1, 1, 1, fun p => 10 * p, a⟩, fun a => ⟨rfl, rfl⟩, fun a b => ⟨rfl, rfl⟩,
    by decide +kernel, by decide +kernel⟩

/-! ## Maximum dimensions -/

/-- **C313.** With the three dimensions given, a magnetic is accepted exactly when it fits in some orientation, and the score is 0 only for one with those
very dimensions; without any requirement, it is accepted. -/
theorem dimensions_three (s : CoreData.Size) (w h d : ℚ) :
    (∃ v, maximumDimensions s (some ⟨some w, some h, some d⟩) = .ok v ∧
      (v.1 = true ↔ ∃ t, CoreData.Turned s t ∧ t.width ≤ w ∧ t.height ≤ h ∧ t.depth ≤ d) ∧
      (v.2 = 0 ↔ s.width = w ∧ s.height = h ∧ s.depth = d)) ∧
    maximumDimensions s none = .ok (true, 0) := by
  refine ⟨⟨_, rfl, ?_, ?_⟩, rfl⟩
  · rw [CoreData.fits_turned]
    simp only [CoreData.inside, CoreData.within]
  · constructor
    · intro e
      have h1 := sq_nonneg (w - s.width)
      have h2 := sq_nonneg (h - s.height)
      have h3 := sq_nonneg (d - s.depth)
      simp only at e
      have e1 : (w - s.width) ^ 2 = 0 := by linarith
      have e2 : (h - s.height) ^ 2 = 0 := by linarith
      have e3 : (d - s.depth) ^ 2 = 0 := by linarith
      rw [sq_eq_zero_iff, sub_eq_zero] at e1 e2 e3
      exact ⟨e1.symm, e2.symm, e3.symm⟩
    · rintro ⟨rfl, rfl, rfl⟩
      simp

/-- **C313.** If some of the three is not given, the filter throws for every magnetic, although what is asked for has a meaning and others answer it. -/
theorem dimensions_some (s : CoreData.Size) (m : CoreData.Maximum) (h : m.width = none ∨ m.height = none ∨ m.depth = none) :
    maximumDimensions s (some m) = .throws := by
  obtain ⟨w, hh, d⟩ := m
  rcases h with h | h | h <;> simp only at h <;> subst h <;> simp only [maximumDimensions]

/-- **C313.** A maximum height alone, which the magnetic is under. -/
theorem height_alone : CoreData.fits ⟨1, 1, 1⟩ ⟨none, some 2, none⟩ true = true ∧
    (∀ v, maximumDimensions ⟨1, 1, 1⟩ (some ⟨none, some 2, none⟩) ≠ .ok v) := by
  refine ⟨by decide +kernel, fun v => ?_⟩
  rw [dimensions_some _ _ (Or.inl rfl)]
  simp

end Verif.CoreTemp
