import Mathlib.Tactic.Linarith
import Mathlib.Tactic.Ring
import Mathlib.Tactic.FieldSimp
import Mathlib.Tactic.Positivity
import Mathlib.Tactic.NormNum
import Mathlib.Algebra.BigOperators.Group.List.Basic
import Mathlib.Algebra.Order.BigOperators.Group.List
import Mathlib.Analysis.SpecialFunctions.Trigonometric.Inverse
import Verif.Costs.Model
import Verif.Filters.Gates

/-! # Properties of the filters by temperature, by leakage, by cost and by magnetomotive force -/

set_option linter.unusedSimpArgs false
set_option linter.unusedSectionVars false
set_option linter.unusedVariables false

namespace Verif.Costs

variable {K : Type} [Field K] [LinearOrder K] [IsStrictOrderedRing K]

/-! ## Temperature -/

/-- Spec: a point has an excitation and these losses, at its ambient temperature and with the flux density left for it or, without
one, the calculated one. -/
def HasLosses {B C : Type} (core : B → K → Res K) (p : Point K B C) (l : K) : Prop :=
  p.excited = true ∧ ∃ b, (p.cached = some b ∨ p.cached = none ∧ p.computed = .ok b) ∧ core b p.ambient = .ok l

/-- Spec: the points have these losses, one each. -/
def Losses {B C : Type} (core : B → K → Res K) (ps : List (Point K B C)) (ls : List K) : Prop :=
  List.Forall₂ (HasLosses core) ps ls

/-- Spec: the cooling of the first point. -/
def firstCooling {B C : Type} : List (Point K B C) → Option C
  | [] => none
  | p :: _ => p.cooling

theorem lossesOf_ok {B C : Type} (core : B → K → Res K) (p : Point K B C) (l : K) :
    lossesOf core p = .ok l ↔ HasLosses core p l := by
  unfold lossesOf HasLosses fluxOf
  cases p.excited <;> cases p.cached <;> simp [Res.bind]
  cases p.computed <;> simp [Res.bind]

/-- Spec: the ambient temperature of the last point; 25 without points. -/
def lastAmbient {B C : Type} (ps : List (Point K B C)) : K := (ps.getLast?.map fun p => p.ambient).getD 25

theorem temperatureLoop_eq {B C : Type} {core : B → K → Res K} {ps : List (Point K B C)} {ls : List K} (h : Losses core ps ls)
    (total ambient : K) :
    temperatureLoop core ps total ambient = .ok (total + ls.sum, (ps.getLast?.map fun p => p.ambient).getD ambient) := by
  induction h generalizing total ambient with
  | nil => simp [temperatureLoop]
  | @cons p l ps ls hp hs ih =>
    simp only [temperatureLoop, (lossesOf_ok core p l).2 hp, Res.bind, ih, List.sum_cons]
    cases ps with
    | nil => simp [add_assoc]
    | cons q qs =>
      rw [List.getLast?_cons_cons, List.getLast?_eq_getLast_of_ne_nil (List.cons_ne_nil q qs)]
      simp [add_assoc]

/-- **C394.** The filter asks for the temperature of the mean of the losses of the points, at the ambient temperature of the last one
and with the cooling of the first one, and accepts what is not above the limit. -/
theorem temperature_of {B C : Type} {core : B → K → Res K} {ps : List (Point K B C)} {ls : List K} (h : Losses core ps ls)
    (hne : ps ≠ []) (solve : K → K → Option C → Res K) (limit : K) :
    temperature core solve limit ps =
      (solve (ls.sum / ls.length) (lastAmbient ps) (firstCooling ps)).bind fun t => .ok (decide (t ≤ limit), t) := by
  have hl : ps.length = ls.length := h.length_eq
  have h0 : ps.length ≠ 0 := by simpa using hne
  have hc : coolingOf ps = firstCooling ps := by cases ps <;> rfl
  rw [temperature, temperatureLoop_eq h, hc]
  simp only [Res.bind, meanLosses, h0, if_false, zero_add, hl, lastAmbient]
  rw [if_neg (hl ▸ h0)]

/-- **C394.** Without points it is that of no losses at 25 degrees. -/
theorem temperature_without {B C : Type} (core : B → K → Res K) (solve : K → K → Option C → Res K) (limit : K) :
    temperature core solve limit ([] : List (Point K B C)) = (solve 0 25 none).bind fun t => .ok (decide (t ≤ limit), t) := rfl

/-- **C394.** A failure of the losses of a point is never an answer. -/
theorem temperature_fails {B C : Type} {core : B → K → Res K} {solve : K → K → Option C → Res K} {limit : K}
    {ps : List (Point K B C)} {r : Bool × K} (h : temperature core solve limit ps = .ok r) : ∃ ls, Losses core ps ls := by
  have key : ∀ (ps : List (Point K B C)) (t a : K) (q : K × K), temperatureLoop core ps t a = .ok q → ∃ ls, Losses core ps ls := by
    intro ps
    induction ps with
    | nil => intro t a q _; exact ⟨[], .nil⟩
    | cons p ps ih =>
      intro t a q hq
      rw [temperatureLoop] at hq
      cases hp : lossesOf core p with
      | ok l =>
        rw [hp] at hq
        obtain ⟨ls, hls⟩ := ih _ _ _ hq
        exact ⟨l :: ls, .cons ((lossesOf_ok core p l).1 hp) hls⟩
      | throws => rw [hp] at hq; exact absurd hq (by simp [Res.bind])
      | ub => rw [hp] at hq; exact absurd hq (by simp [Res.bind])
  rw [temperature] at h
  cases hq : temperatureLoop core ps 0 25 with
  | ok q => exact key _ _ _ _ hq
  | throws => rw [hq] at h; exact absurd h (by simp [Res.bind])
  | ub => rw [hq] at h; exact absurd h (by simp [Res.bind])

theorem sum_le_of {ls : List K} {b : K} (h : ∀ l ∈ ls, l ≤ b) : ls.sum ≤ ls.length * b := by
  induction ls with
  | nil => simp
  | cons l ls ih =>
    have h1 := h l (by simp)
    have h2 := ih fun x hx => h x (by simp [hx])
    simp only [List.sum_cons, List.length_cons, Nat.cast_add, Nat.cast_one]
    linarith [add_mul (ls.length : K) 1 b]

theorem le_sum_of {ls : List K} {b : K} (h : ∀ l ∈ ls, b ≤ l) : ls.length * b ≤ ls.sum := by
  induction ls with
  | nil => simp
  | cons l ls ih =>
    have h1 := h l (by simp)
    have h2 := ih fun x hx => h x (by simp [hx])
    simp only [List.sum_cons, List.length_cons, Nat.cast_add, Nat.cast_one]
    linarith [add_mul (ls.length : K) 1 b]

/-- Spec: all points have an ambient temperature and a cooling. -/
def Alike {B C : Type} (ambient : K) (cooling : Option C) (ps : List (Point K B C)) : Prop :=
  ∀ p ∈ ps, p.ambient = ambient ∧ p.cooling = cooling

theorem alike_ends {B C : Type} {a : K} {c : Option C} {ps : List (Point K B C)} (h : Alike a c ps) (hne : ps ≠ []) :
    lastAmbient ps = a ∧ firstCooling ps = c := by
  cases ps with
  | nil => exact absurd rfl hne
  | cons p ps =>
    refine ⟨?_, ?_⟩
    · rw [lastAmbient, List.getLast?_eq_getLast_of_ne_nil hne]
      simpa using (h _ (List.getLast_mem hne)).1
    · simpa [firstCooling] using (h p (by simp)).2

/-- **C395 (partial).** With points of one ambient temperature and one cooling, and temperatures that do not fall with the losses, a
component that is rejected has a point that alone is rejected, and one of which all points alone are rejected is rejected. What is
missing is that every point of an accepted component is within the limit: `mean_hides`. -/
theorem between_points_partial {B C : Type} {core : B → K → Res K} {t : K → K → Option C → K} {a : K} {c : Option C}
    (ht : ∀ x y : K, x ≤ y → t x a c ≤ t y a c) {ps : List (Point K B C)} {ls : List K} (h : Losses core ps ls) (hne : ps ≠ [])
    (ha : Alike a c ps) (limit : K) :
    ∃ m : K, temperature core (fun x y z => .ok (t x y z)) limit ps = .ok (decide (m ≤ limit), m) ∧
      (limit < m → ∃ l ∈ ls, limit < t l a c) ∧ ((∀ l ∈ ls, limit < t l a c) → limit < m) := by
  have hl : ls ≠ [] := by
    intro h0; subst h0; cases h; exact hne rfl
  have hpos : (0 : K) < ls.length := by exact_mod_cast List.length_pos_iff.mpr hl
  obtain ⟨e1, e2⟩ := alike_ends ha hne
  refine ⟨t (ls.sum / ls.length) a c, ?_, ?_, ?_⟩
  · rw [temperature_of h hne, e1, e2]; rfl
  · intro hm
    by_contra hc
    push Not at hc
    -- the largest of the losses is not below the mean
    obtain ⟨l, hlm, hmax⟩ : ∃ l ∈ ls, ∀ x ∈ ls, x ≤ l := by
      clear h hm hc hpos
      induction ls with
      | nil => exact absurd rfl hl
      | cons x xs ih =>
        by_cases hx : xs = []
        · subst hx; exact ⟨x, by simp, by simp⟩
        · obtain ⟨l, h1, h2⟩ := ih hx
          rcases le_total x l with hxl | hxl
          · exact ⟨l, by simp [h1], by intro y hy; rcases List.mem_cons.mp hy with rfl | hy; exacts [hxl, h2 y hy]⟩
          · exact ⟨x, by simp, by intro y hy; rcases List.mem_cons.mp hy with rfl | hy; exacts [le_refl _, (h2 y hy).trans hxl]⟩
    have hs := sum_le_of hmax
    have : ls.sum / ls.length ≤ l := by rw [div_le_iff₀ hpos]; linarith [mul_comm (ls.length : K) l]
    exact absurd (hm.trans_le (ht _ _ this)) (not_lt.mpr (hc l hlm))
  · intro hall
    obtain ⟨l, hlm, hmin⟩ : ∃ l ∈ ls, ∀ x ∈ ls, l ≤ x := by
      clear h hall hpos
      induction ls with
      | nil => exact absurd rfl hl
      | cons x xs ih =>
        by_cases hx : xs = []
        · subst hx; exact ⟨x, by simp, by simp⟩
        · obtain ⟨l, h1, h2⟩ := ih hx
          rcases le_total x l with hxl | hxl
          · exact ⟨x, by simp, by intro y hy; rcases List.mem_cons.mp hy with rfl | hy; exacts [le_refl _, hxl.trans (h2 y hy)]⟩
          · exact ⟨l, by simp [h1], by intro y hy; rcases List.mem_cons.mp hy with rfl | hy; exacts [hxl, h2 y hy]⟩
    have hs := le_sum_of hmin
    have : l ≤ ls.sum / ls.length := by rw [le_div_iff₀ hpos]; linarith [mul_comm (ls.length : K) l]
    exact (hall l hlm).trans_le (ht _ _ this)

/-- A point of the examples: its losses are given as a flux density. -/
def plain (ambient losses : ℚ) : Point ℚ ℚ Unit := ⟨ambient, true, none, .ok losses, none⟩

/-- A body that gets fifty degrees hotter with each watt. -/
def heated (losses ambient : ℚ) (_ : Option Unit) : Res ℚ := .ok (ambient + 50 * losses)

example : Losses (fun b _ => .ok b) [plain 25 0, plain 25 2] [0, 2] :=
  .cons ((lossesOf_ok _ _ _).1 rfl) (.cons ((lossesOf_ok _ _ _).1 rfl) .nil)
example : Alike 25 none [plain 25 0, plain 25 2] := by
  intro p hp; rcases List.mem_cons.mp hp with rfl | hp
  · exact ⟨rfl, rfl⟩
  · rw [List.mem_singleton.mp hp]; exact ⟨rfl, rfl⟩

/-- **C395.** An accepted component can be above the limit at one of its points: the losses of another hide it. -/
theorem mean_hides : temperature (fun b _ => .ok b) heated 100 [plain 25 0, plain 25 2] = .ok (true, 75) ∧
    temperature (fun b _ => .ok b) heated 100 [plain 25 2] = .ok (false, 125) := ⟨by decide +kernel, by decide +kernel⟩

/-- **C395.** The same points in another order are accepted or not: only the last ambient temperature counts. -/
theorem order_matters : temperature (fun b _ => .ok b) heated 100 [plain 90 1, plain 25 1] = .ok (true, 75) ∧
    temperature (fun b _ => .ok b) heated 100 [plain 25 1, plain 90 1] = .ok (false, 140) := ⟨by decide +kernel, by decide +kernel⟩

/-! ## Leakage -/

/-- **C396.** Components of one winding are accepted without a score, and nothing is asked of them. -/
theorem leakage_single {M O : Type} {windings : Nat} (h : windings < 2) (standard : K) (points : List (List K)) (leak : K → Res K)
    (magnetizing : Res K) (outs : List (Out K M O)) :
    leakage windings standard points leak magnetizing outs = .ok ((true, 0), outs) := by simp [leakage, h]

/-- **C396.** With two or more, an answer accepts with the quotient of the leakage at the frequency of the first excitation of the
first point, or the standard one without points, and of a positive magnetizing inductance. -/
theorem leakage_ratio {M O : Type} {windings : Nat} (h : 2 ≤ windings) {standard : K} {points : List (List K)} {leak : K → Res K}
    {magnetizing : Res K} {outs : List (Out K M O)} {r : (Bool × K) × List (Out K M O)} :
    leakage windings standard points leak magnetizing outs = .ok r ↔
      ∃ f l lm : K, (points = [] ∧ f = standard ∨ ∃ (fs : List K) (ps : List (List K)), points = (f :: fs) :: ps) ∧
        leak f = .ok l ∧ magnetizing = .ok lm ∧ 0 < lm ∧ r = ((true, l / lm), writeLeakage l points.length outs) := by
  have hw : ¬ windings < 2 := not_lt.mpr h
  rw [leakage, if_neg hw]
  constructor
  · intro hr
    cases hf : leakageFrequency standard points with
    | ok f =>
      rw [hf] at hr
      simp only [Res.bind] at hr
      cases hl : leak f with
      | ok l =>
        rw [hl] at hr
        cases hm : magnetizing with
        | ok lm =>
          rw [hm] at hr
          simp only [leakageScore] at hr
          by_cases h0 : lm ≤ 0
          · rw [if_pos h0] at hr; cases hr
          · rw [if_neg h0] at hr
            injection hr with hr
            refine ⟨f, l, lm, ?_, hl, rfl, not_le.mp h0, hr.symm⟩
            unfold leakageFrequency at hf
            split at hf
            · injection hf with hf; exact .inl ⟨rfl, hf.symm⟩
            · cases hf
            · injection hf with hf; subst hf; exact .inr ⟨_, _, rfl⟩
        | throws => rw [hm] at hr; cases hr
        | ub => rw [hm] at hr; cases hr
      | throws => rw [hl] at hr; cases hr
      | ub => rw [hl] at hr; cases hr
    | throws => rw [hf] at hr; cases hr
    | ub => rw [hf] at hr; cases hr
  · rintro ⟨f, l, lm, hf, hl, hm, h0, rfl⟩
    have hfr : leakageFrequency standard points = .ok f := by
      rcases hf with ⟨rfl, rfl⟩ | ⟨fs, ps, rfl⟩ <;> rfl
    rw [hfr, hm]
    simp only [Res.bind, hl, leakageScore, not_le.mpr h0, if_false]

/-- **C396.** The outputs: one for each point at least; those of the points have the leakage and keep all else; the others are kept. -/
theorem leakage_outputs {M O : Type} (l : K) (n : Nat) (outs : List (Out K M O)) :
    (writeLeakage l n outs).length = max n outs.length ∧
      (∀ i : Nat, i < n → ∃ o : Out K M O, (writeLeakage l n outs)[i]? = some o ∧
        (o.inductances.bind fun x => x.leakage) = some l ∧
        (o.inductances.bind fun x => x.magnetizing) = (outs[i]?.bind fun q => q.inductances.bind fun x => x.magnetizing) ∧
        o.other = outs[i]?.bind fun q => q.other) ∧
      ∀ i : Nat, n ≤ i → (writeLeakage l n outs)[i]? = outs[i]? := by
  induction n generalizing outs with
  | zero => simp [writeLeakage]
  | succ n ih =>
    cases outs with
    | nil =>
      obtain ⟨h1, h2, h3⟩ := ih []
      refine ⟨by simpa [writeLeakage] using h1, ?_, ?_⟩
      · intro i hi
        cases i with
        | zero => exact ⟨setLeakage l ⟨none, none⟩, by simp [writeLeakage], by simp [setLeakage], by simp [setLeakage], by simp [setLeakage]⟩
        | succ i => simpa [writeLeakage] using h2 i (by omega)
      · intro i hi
        cases i with
        | zero => omega
        | succ i => simpa [writeLeakage] using h3 i (by omega)
    | cons o outs =>
      obtain ⟨h1, h2, h3⟩ := ih outs
      refine ⟨by simp only [writeLeakage, List.length_cons, h1]; omega, ?_, ?_⟩
      · intro i hi
        cases i with
        | zero =>
          refine ⟨setLeakage l o, by simp [writeLeakage], by simp [setLeakage], ?_, by simp [setLeakage]⟩
          cases ho : o.inductances <;> simp [setLeakage, ho]
        | succ i => simpa [writeLeakage] using h2 i (by omega)
      · intro i hi
        cases i with
        | zero => omega
        | succ i => simpa [writeLeakage] using h3 i (by omega)

example : leakage (K := ℚ) (M := ℚ) (O := Unit) 2 1000 [[50], [60]] (fun f => .ok (f / 10)) (.ok 100) [⟨some ⟨none, some 7⟩, some ()⟩] =
    .ok ((true, 1 / 20), [⟨some ⟨some 5, some 7⟩, some ()⟩, ⟨some ⟨some 5, none⟩, none⟩]) := by decide +kernel

/-! ## Estimated cost -/

theorem foldl_max (xs : List K) (a : K) : a ≤ xs.foldl max a ∧ (∀ x ∈ xs, x ≤ xs.foldl max a) ∧
    (xs.foldl max a = a ∨ xs.foldl max a ∈ xs) := by
  induction xs generalizing a with
  | nil => simp
  | cons x xs ih =>
    obtain ⟨h1, h2, h3⟩ := ih (max a x)
    simp only [List.foldl_cons]
    refine ⟨(le_max_left _ _).trans h1, ?_, ?_⟩
    · intro y hy
      rcases List.mem_cons.mp hy with rfl | hy
      · exact (le_max_right _ _).trans h1
      · exact h2 y hy
    · rcases h3 with h | h
      · rcases max_choice a x with hm | hm
        · left; rw [h, hm]
        · right; rw [h, hm]; simp
      · right; simp [h]

/-- **C397.** The wires of the estimate: with the parallels, the current of no point is denser than allowed, and with one parallel less
it would be at some point. -/
theorem density_within [FloorRing K] {π density : K} {skin filling : K → K} {currents frequencies : List K} {creepage : Option K}
    (hd : 0 < density) (ha : 0 < π * skin (largest frequencies) ^ 2) :
    (∀ i ∈ currents, i ≤ density * ((construct π density skin filling currents frequencies creepage).parallels *
        (π * skin (largest frequencies) ^ 2))) ∧
      (0 < (construct π density skin filling currents frequencies creepage).parallels →
        ∃ i ∈ currents, density * (((construct π density skin filling currents frequencies creepage).parallels - 1) *
          (π * skin (largest frequencies) ^ 2)) < i) ∧
      ∃ n : Nat, (construct π density skin filling currents frequencies creepage).parallels = n := by
  obtain ⟨m0, m1, m2⟩ := foldl_max currents (0 : K)
  set area := π * skin (largest frequencies) ^ 2
  have hp : (construct π density skin filling currents frequencies creepage).parallels =
      ((⌈currents.foldl max 0 / density / area⌉ : ℤ) : K) := rfl
  rw [hp]
  have h1 := Int.le_ceil (currents.foldl max 0 / density / area)
  have h2 := Int.ceil_lt_add_one (currents.foldl max 0 / density / area)
  have hn : 0 ≤ ⌈currents.foldl max 0 / density / area⌉ := Int.ceil_nonneg (by positivity)
  refine ⟨?_, ?_, ?_⟩
  · intro i hi
    rw [div_le_iff₀ ha, div_le_iff₀ hd] at h1
    linarith [m1 i hi, mul_comm density (((⌈currents.foldl max 0 / density / area⌉ : ℤ) : K) * area)]
  · intro hpos
    have h3 : ((⌈currents.foldl max 0 / density / area⌉ : ℤ) : K) - 1 < currents.foldl max 0 / density / area := by linarith
    rw [lt_div_iff₀ ha, lt_div_iff₀ hd] at h3
    have h4 : density * ((((⌈currents.foldl max 0 / density / area⌉ : ℤ) : K) - 1) * area) < currents.foldl max 0 := by
      linarith [mul_comm density ((((⌈currents.foldl max 0 / density / area⌉ : ℤ) : K) - 1) * area)]
    rcases m2 with hz | hm
    · rw [hz] at hpos; simp at hpos
    · exact ⟨_, hm, h4⟩
  · exact ⟨⌈currents.foldl max 0 / density / area⌉.toNat, by
      rw [← Int.cast_natCast, Int.toNat_of_nonneg hn]⟩

example : (construct (K := ℚ) 3 2 (fun f => 1 / f) (fun _ => 1 / 2) [5, 13] [1, 1] none).parallels = 3 := by decide +kernel

/-- Spec: a sensible estimate. -/
structure Sensible (e : Estimate K) : Prop where
  parallels : 0 ≤ e.parallels
  area : 0 ≤ e.wireArea
  filling : 0 < e.filling
  depth : 0 ≤ e.depth

theorem layers_nonneg {e : Estimate K} (he : Sensible e) (turns : Nat) {length : K} (hl : 0 < length) :
    0 ≤ neededLayers e turns length := by
  have := he.parallels; have := he.filling; have := he.depth
  unfold neededLayers; positivity

theorem layers_mono {e : Estimate K} (he : Sensible e) {a b : Nat} (hab : a ≤ b) {length : K} (hl : 0 < length) :
    neededLayers e a length ≤ neededLayers e b length := by
  have h1 := he.parallels; have h2 := he.filling; have h3 := he.depth
  have hc : (a : K) ≤ b := by exact_mod_cast hab
  unfold neededLayers
  have : (0 : K) ≤ 2 * e.depth / e.filling := by positivity
  gcongr

theorem area_mono {e : Estimate K} (he : Sensible e) {a b : Nat} (hab : a ≤ b) (ratios : Nat) :
    neededArea e a ratios ≤ neededArea e b ratios := by
  have h1 := he.parallels; have h2 := he.area
  have hc : (a : K) ≤ b := by exact_mod_cast hab
  unfold neededArea
  gcongr

theorem roundCost_mono {x y : K} (hx : 0 ≤ x) (h : x ≤ y) : roundCost x ≤ roundCost y := by
  unfold roundCost; split_ifs <;> linarith

theorem stackCost_mono (count : Nat) {x y : K} (h : x ≤ y) : stackCost count x ≤ stackCost count y := by
  unfold stackCost; split_ifs <;> linarith

/-- **C398.** In a window that is not round: accepted exactly when the wires of all windings, with as many turns as the primary, fit by
the threshold in what the margin leaves; the score is the layers of the primary along the height, twice with several stacks. -/
theorem straight_cost (π : K) (angle : K → K → K) (threshold : K) (e : Estimate K) (turns ratios count : Nat) (area height width : K) :
    ∃ valid score, estimatedCost π angle threshold e turns ratios count (.straight area height width) = .ok (valid, score) ∧
      (valid = true ↔ turns * e.parallels * e.wireArea * (ratios + 1) * threshold ≤
        if 0 < e.margin then area - min width height * e.margin else area) ∧
      score = (if 1 < count then 2 else 1) * (turns * e.parallels * (2 * e.depth / e.filling) / height) := by
  refine ⟨_, _, rfl, ?_, ?_⟩
  · rw [decide_eq_true_iff]
    unfold neededArea straightArea
    by_cases hm : 0 < e.margin
    · rw [if_pos hm, if_pos hm]
      by_cases hw : width < height
      · rw [if_pos hw, min_eq_left hw.le]
      · rw [if_neg hw, min_eq_right (not_lt.mp hw)]
    · rw [if_neg hm, if_neg hm]
  · unfold stackCost neededLayers
    split_ifs <;> ring

/-- **C398.** With a margin as long as the longer side of the window nothing is accepted that needs an area. -/
theorem straight_no_room {π : K} {angle : K → K → K} {threshold : K} (ht : 0 < threshold) {e : Estimate K} {turns ratios count : Nat}
    (hn : 0 < neededArea e turns ratios) {height width : K} (hm : max height width ≤ e.margin) (hh : 0 < height) (hw : 0 < width)
    {score : K} : estimatedCost π angle threshold e turns ratios count (.straight (height * width) height width) ≠ .ok (true, score) := by
  intro h
  obtain ⟨v, s, h1, h2, -⟩ := straight_cost π angle threshold e turns ratios count (height * width) height width
  rw [h1] at h
  injection h with h
  injection h with hv _
  subst hv
  have hmp : 0 < e.margin := hh.trans_le ((le_max_left _ _).trans hm)
  have h3 := h2.mp rfl
  rw [if_pos hmp] at h3
  have h4 : 0 < turns * e.parallels * e.wireArea * (ratios + 1) * threshold := mul_pos hn ht
  have h5 : height * width = min width height * max width height := by rw [min_mul_max, mul_comm]
  have h6 : min width height * max width height ≤ min width height * e.margin :=
    mul_le_mul_of_nonneg_left (by rw [max_comm]; exact hm) (le_min hw.le hh.le)
  linarith

/-- **C398.** Fewer turns are never rejected where more are accepted, nor have they a higher score. -/
theorem fewer_turns {π : K} (hπ : 0 < π) {angle : K → K → K} {threshold : K} (ht : 0 ≤ threshold) {e : Estimate K} (he : Sensible e)
    {a b : Nat} (hab : a ≤ b) (ratios count : Nat) {w : Window K} (hw : ∀ x y z : K, w = .straight x y z → 0 < y) {v : Bool} {s : K}
    (h : estimatedCost π angle threshold e b ratios count w = .ok (v, s)) :
    ∃ (v' : Bool) (s' : K), estimatedCost π angle threshold e a ratios count w = .ok (v', s') ∧ (v = true → v' = true) ∧ s' ≤ s := by
  have harea := mul_le_mul_of_nonneg_right (area_mono he hab ratios) ht
  cases w with
  | straight x y z =>
    simp only [estimatedCost] at h ⊢
    injection h with h
    injection h with hv hs
    refine ⟨_, _, rfl, ?_, ?_⟩
    · intro hv'
      rw [hv', decide_eq_true_iff] at hv
      rw [decide_eq_true_iff]
      exact harea.trans hv
    · rw [← hs]
      exact stackCost_mono count (layers_mono he hab (hw x y z rfl))
  | round x r =>
    simp only [estimatedCost] at h ⊢
    cases hr : roundArea angle e.margin x r with
    | none =>
      rw [hr] at h
      injection h with h
      injection h with hv hs
      exact ⟨false, 0, rfl, by intro h; rw [← hv] at h; exact h, by rw [← hs]⟩
    | some left =>
      rw [hr] at h
      simp only [roundAnswer] at h ⊢
      by_cases hd : r ≤ e.depth
      · rw [if_pos hd] at h ⊢
        injection h with h
        injection h with hv hs
        exact ⟨false, 0, rfl, by intro h; rw [← hv] at h; exact h, by rw [← hs]⟩
      · have hl : 0 < 2 * π * (r - e.depth) := by
          have : 0 < r - e.depth := sub_pos.mpr (not_le.mp hd)
          positivity
        rw [if_neg hd, if_neg (not_lt.mpr (layers_nonneg he _ hl))] at h ⊢
        injection h with h
        injection h with hv hs
        refine ⟨_, _, rfl, ?_, ?_⟩
        · intro hv'
          rw [hv', decide_eq_true_iff] at hv
          rw [decide_eq_true_iff]
          exact harea.trans hv
        · rw [← hs]
          exact stackCost_mono count (roundCost_mono (layers_nonneg he a hl) (layers_mono he hab hl))

example : Sensible (⟨3, 6, 1 / 2, 1, 0⟩ : Estimate ℚ) := ⟨by norm_num, by norm_num, by norm_num, by norm_num⟩
example : estimatedCost (K := ℚ) 3 (fun _ _ => 60) (9 / 10) ⟨3, 6, 1 / 2, 1, 1⟩ 10 1 2 (.straight 600 30 20) = .ok (true, 8) := by
  decide +kernel

/-- **C399.** A margin that is not rejected takes at most a sixth of the window of a toroid, and is never taken for one that does not
fit. -/
theorem round_margin {margin area radial left : ℝ} (hm : 0 < margin) (ha : 0 ≤ area)
    (h : roundArea Rings.woundAngle margin area radial = some left) : margin ≤ radial / 2 ∧ 5 / 6 * area ≤ left ∧ left ≤ area := by
  unfold roundArea at h
  rw [if_pos hm] at h
  by_cases hr : radial / 2 < margin
  · rw [if_pos hr] at h; cases h
  · rw [if_neg hr] at h
    injection h with h
    have hr' : margin ≤ radial / 2 := not_lt.mp hr
    have hpos : 0 < radial / 2 := hm.trans_le hr'
    have hq : margin / 2 / (radial / 2) ≤ 1 / 2 := by rw [div_le_iff₀ hpos]; linarith
    have hq0 : 0 ≤ margin / 2 / (radial / 2) := by positivity
    have e : Rings.woundAngle margin (radial / 2) = 2 * Real.arcsin (margin / 2 / (radial / 2)) * 180 / Real.pi := by
      unfold Rings.woundAngle
      rw [if_neg]
      rintro (h0 | h0) <;> linarith
    have h1 : Real.arcsin (margin / 2 / (radial / 2)) ≤ Real.pi / 6 := by
      have hs : Real.sin (Real.pi / 6) = 1 / 2 := Real.sin_pi_div_six
      rw [Real.arcsin_le_iff_le_sin ⟨by linarith, by linarith⟩ ⟨by linarith [Real.pi_pos], by linarith [Real.pi_pos]⟩, hs]
      exact hq
    have h2 : 0 ≤ Real.arcsin (margin / 2 / (radial / 2)) := Real.arcsin_nonneg.mpr hq0
    have h3 : Rings.woundAngle margin (radial / 2) ≤ 60 := by
      rw [e, div_le_iff₀ Real.pi_pos]; linarith
    have h4 : 0 ≤ Rings.woundAngle margin (radial / 2) := by
      rw [e]; exact div_nonneg (by linarith) Real.pi_pos.le
    refine ⟨hr', ?_, ?_⟩
    · rw [← h]
      nlinarith [mul_nonneg ha (sub_nonneg.mpr h3)]
    · rw [← h]
      nlinarith [mul_nonneg ha h4]

example : roundArea Rings.woundAngle (1 / 2) 6 1 = some 5 := by
  unfold roundArea Rings.woundAngle
  rw [if_pos (by norm_num), if_neg (by norm_num), if_neg (by norm_num)]
  have : Real.arcsin (1 / 2 / 2 / (1 / 2)) = Real.pi / 6 := by
    rw [show (1 / 2 / 2 / (1 / 2) : ℝ) = Real.sin (Real.pi / 6) by rw [Real.sin_pi_div_six]; norm_num]
    exact Real.arcsin_sin (by linarith [Real.pi_pos]) (by linarith [Real.pi_pos])
  rw [this]
  have := Real.pi_ne_zero
  congr 1
  field_simp
  norm_num

/-- **C399.** In a round window: rejected without a score exactly for a margin above half the radial height or a skin depth not below
it; otherwise an area and a score as in other windows, along the circumference, and twice the score above one layer. -/
theorem round_cost {π : K} (hπ : 0 < π) {angle : K → K → K} {threshold : K} {e : Estimate K} (he : Sensible e) (turns ratios count : Nat)
    (area radial : K) :
    ((0 < e.margin ∧ radial / 2 < e.margin ∨ radial ≤ e.depth) →
        estimatedCost π angle threshold e turns ratios count (.round area radial) = .ok (false, 0)) ∧
      (¬ (0 < e.margin ∧ radial / 2 < e.margin ∨ radial ≤ e.depth) → ∃ valid score left layers,
        estimatedCost π angle threshold e turns ratios count (.round area radial) = .ok (valid, score) ∧
          (valid = true ↔ turns * e.parallels * e.wireArea * (ratios + 1) * threshold ≤ left) ∧
          left = (if 0 < e.margin then area * ((360 - angle e.margin (radial / 2)) / 360) else area) ∧
          layers * (2 * π * (radial - e.depth)) = turns * e.parallels * (2 * e.depth / e.filling) ∧
          score = (if 1 < count then 2 else 1) * ((if 1 < layers then 2 else 1) * layers)) := by
  constructor
  · intro h
    simp only [estimatedCost]
    by_cases hm : 0 < e.margin ∧ radial / 2 < e.margin
    · have : roundArea angle e.margin area radial = none := by unfold roundArea; rw [if_pos hm.1, if_pos hm.2]
      rw [this]
    · have hd : radial ≤ e.depth := h.resolve_left hm
      cases hr : roundArea angle e.margin area radial with
      | none => rfl
      | some left => simp only [roundAnswer]; rw [if_pos hd]
  · intro h
    have hm : ¬ (0 < e.margin ∧ radial / 2 < e.margin) := fun q => h (.inl q)
    have hd : ¬ radial ≤ e.depth := fun q => h (.inr q)
    have hl : 0 < 2 * π * (radial - e.depth) := by
      have : 0 < radial - e.depth := sub_pos.mpr (not_le.mp hd)
      positivity
    have hr : roundArea angle e.margin area radial =
        some (if 0 < e.margin then area * ((360 - angle e.margin (radial / 2)) / 360) else area) := by
      unfold roundArea
      by_cases h0 : 0 < e.margin
      · rw [if_pos h0, if_pos h0, if_neg (fun q => hm ⟨h0, q⟩)]
      · rw [if_neg h0, if_neg h0]
    simp only [estimatedCost]
    rw [hr]
    simp only [roundAnswer]
    rw [if_neg hd, if_neg (not_lt.mpr (layers_nonneg he _ hl))]
    refine ⟨_, _, _, neededLayers e turns (2 * π * (radial - e.depth)), rfl, ?_, rfl, ?_, ?_⟩
    · rw [decide_eq_true_iff]; rfl
    · unfold neededLayers; exact div_mul_cancel₀ _ hl.ne'
    · unfold stackCost roundCost
      split_ifs <;> ring

/-! ## Cost of wires -/

/-- **C400.** The cost of a wire: none for one without coating that is not litz; a litz wire costs one to four more, never less with more
strands; enamel costs its grade; three or more layers of insulation cost their number, one costs as three and two cost as four. -/
theorem wire_costs :
    wireCost ⟨false, none, none⟩ = .ok 0 ∧
      (∀ (n : Nat) (c : Option Coating) (x : Nat), wireCost ⟨false, none, c⟩ = .ok x →
        ∃ y, wireCost ⟨true, some n, c⟩ = .ok (x + y) ∧ 1 ≤ y ∧ y ≤ 4 ∧ (y = 1 ↔ n ≤ 100) ∧ (y = 2 ↔ 100 < n ∧ n ≤ 500) ∧
          (y = 3 ↔ 500 < n ∧ n ≤ 1000)) ∧
      (∀ g : Nat, wireCost ⟨false, none, some (.enamelled (some g))⟩ = .ok g) ∧
      (∀ l : Nat, wireCost ⟨false, none, some (.insulated (some l))⟩ = .ok (if l = 1 then 3 else if l = 2 then 4 else l)) := by
  refine ⟨rfl, ?_, ?_, ?_⟩
  · intro n c x hx
    simp only [wireCost, strandCost, need, Res.bind] at hx ⊢
    cases hc : coatingCost c with
    | ok b =>
      rw [hc] at hx
      simp only [Bool.false_eq_true, if_false, Nat.zero_add, if_true, Res.ok.injEq] at hx ⊢
      refine ⟨litzCost n, by omega, ?_⟩
      unfold litzCost
      split_ifs <;> omega
    | throws => rw [hc] at hx; simp at hx
    | ub => rw [hc] at hx; simp at hx
  · intro g; simp [wireCost, strandCost, coatingCost, need, Res.bind]
  · intro l
    simp only [wireCost, strandCost, coatingCost, need, Res.bind, insulatedCost, Bool.false_eq_true, if_false, Nat.zero_add,
      Res.ok.injEq]
    split_ifs <;> omega

/-- **C400.** A wire has no cost exactly when a number it needs is missing: the strands of a litz wire, the layers of an insulation, the
grade of an enamel. -/
theorem wire_missing (w : Wire) :
    wireCost w = .throws ↔ (w.litz = true ∧ w.conductors = none) ∨ w.coating = some (.insulated none) ∨
      w.coating = some (.enamelled none) := by
  obtain ⟨l, n, c⟩ := w
  cases l <;> cases n <;> rcases c with _ | ⟨_ | _⟩ | ⟨_ | _⟩ | _ <;>
    simp [wireCost, strandCost, coatingCost, need, Res.bind]

/-- Spec: the wires have these costs. -/
def Priced (ws : List Wire) (cs : List Nat) : Prop := List.Forall₂ (fun w c => wireCost w = .ok c) ws cs

/-- **C400.** The score by cost is the layers of the coil and the costs of its wires; every component with them is accepted. -/
theorem cost_score {ws : List Wire} {layers : Option Nat} {r : Bool × Nat} :
    cost ws layers = .ok r ↔ ∃ cs n, Priced ws cs ∧ layers = some n ∧ r = (true, n + cs.sum) := by
  have key : ∀ (ws : List Wire) (t : Nat), wiresCost ws = .ok t ↔ ∃ cs, Priced ws cs ∧ t = cs.sum := by
    intro ws
    induction ws with
    | nil =>
      intro t
      constructor
      · intro h; injection h with h; exact ⟨[], .nil, by simp [h.symm]⟩
      · rintro ⟨cs, h, rfl⟩; cases h; rfl
    | cons w ws ih =>
      intro t
      rw [wiresCost]
      constructor
      · intro h
        cases hw : wireCost w with
        | ok a =>
          rw [hw] at h
          cases hs : wiresCost ws with
          | ok b =>
            rw [hs] at h
            injection h with h
            obtain ⟨cs, h1, h2⟩ := (ih b).mp hs
            exact ⟨a :: cs, .cons hw h1, by simp [← h, h2]⟩
          | throws => rw [hs] at h; cases h
          | ub => rw [hs] at h; cases h
        | throws => rw [hw] at h; cases h
        | ub => rw [hw] at h; cases h
      · rintro ⟨cs, h, rfl⟩
        cases h with
        | @cons _ c _ cs h1 h2 => rw [h1, (ih cs.sum).mpr ⟨cs, h2, rfl⟩]; simp [Res.bind]
  unfold cost
  constructor
  · intro h
    cases hs : wiresCost ws with
    | ok b =>
      rw [hs] at h
      cases layers with
      | none => cases h
      | some n =>
        injection h with h
        obtain ⟨cs, h1, h2⟩ := (key ws b).mp hs
        exact ⟨cs, n, h1, rfl, by rw [← h, h2]⟩
    | throws => rw [hs] at h; cases h
    | ub => rw [hs] at h; cases h
  · rintro ⟨cs, n, h1, rfl, rfl⟩
    rw [(key ws cs.sum).mpr ⟨cs, h1, rfl⟩]; rfl

example : cost [⟨true, some 600, some (.enamelled (some 1))⟩, ⟨false, none, some (.insulated (some 3))⟩] (some 5) = .ok (true, 12) := by
  decide

/-! ## Magnetomotive force -/

open Filters.Gates in
/-- Spec: the ampere turns of the first `n` layers. -/
def netForce (physical : ℕ → List K → ℤ) (primary : ℕ → Bool) (currents : ℕ → K) (layers : List (Option (Layer K))) (n : Nat) : K :=
  ((layers.take n).map fun l => match l with
    | none => 0
    | some l => (if primary l.winding then 1 else -1) * ((physical l.winding l.proportions : K) * l.partials) * currents l.winding).sum

open Filters.Gates in
theorem forces_eq (physical : ℕ → List K → ℤ) (primary : ℕ → Bool) (currents : ℕ → K) (layers : List (Option (Layer K))) (f : K) :
    forces physical primary currents f layers =
      (List.range (layers.length + 1)).map fun n => f + netForce physical primary currents layers n := by
  induction layers generalizing f with
  | nil => simp [forces, netForce]
  | cons l layers ih =>
    rw [List.length_cons, List.range_succ_eq_map, List.map_cons, List.map_map]
    have h0 : f + netForce physical primary currents (l :: layers) 0 = f := by simp [netForce]
    rw [h0]
    cases l with
    | none =>
      rw [forces, ih]
      congr 1
      apply List.map_congr_left
      intro n _
      simp [netForce]
    | some l =>
      rw [forces, ih]
      congr 1
      apply List.map_congr_left
      intro n _
      simp only [Function.comp, netForce, List.take_succ_cons, List.map_cons, List.sum_cons]
      unfold layerForce
      split_ifs <;> push_cast <;> ring

theorem foldl_min (xs : List K) (a : K) : xs.foldl min a ≤ a ∧ (∀ x ∈ xs, xs.foldl min a ≤ x) ∧
    (xs.foldl min a = a ∨ xs.foldl min a ∈ xs) := by
  induction xs generalizing a with
  | nil => simp
  | cons x xs ih =>
    obtain ⟨h1, h2, h3⟩ := ih (min a x)
    simp only [List.foldl_cons]
    refine ⟨h1.trans (min_le_left _ _), ?_, ?_⟩
    · intro y hy
      rcases List.mem_cons.mp hy with rfl | hy
      · exact h1.trans (min_le_right _ _)
      · exact h2 y hy
    · rcases h3 with h | h
      · rcases min_choice a x with hm | hm
        · left; rw [h, hm]
        · right; rw [h, hm]; simp
      · right; simp [h]

open Filters.Gates in
theorem pointForce_spec (f : K) (fs : List K) : (∀ x ∈ f :: fs, |x| ≤ pointForce (f :: fs)) ∧ ∃ x ∈ f :: fs, pointForce (f :: fs) = |x| := by
  obtain ⟨a1, a2, a3⟩ := foldl_max fs f
  obtain ⟨b1, b2, b3⟩ := foldl_min fs f
  simp only [pointForce, maxOf, minOf]
  constructor
  · intro x hx
    have hle : x ≤ fs.foldl max f ∧ fs.foldl min f ≤ x := by
      rcases List.mem_cons.mp hx with rfl | hx
      · exact ⟨a1, b1⟩
      · exact ⟨a2 x hx, b2 x hx⟩
    rcases abs_cases x with ⟨hx, -⟩ | ⟨hx, -⟩
    · rw [hx]; exact hle.1.trans ((le_abs_self _).trans (le_max_left _ _))
    · rw [hx]; exact (neg_le_neg hle.2).trans ((neg_le_abs _).trans (le_max_right _ _))
  · rcases max_choice |fs.foldl max f| |fs.foldl min f| with hm | hm
    · refine ⟨fs.foldl max f, ?_, hm⟩
      rcases a3 with h | h
      · rw [h]; simp
      · simp [h]
    · refine ⟨fs.foldl min f, ?_, hm⟩
      rcases b3 with h | h
      · rw [h]; simp
      · simp [h]

open Filters.Gates in
/-- **C401.** The score by magnetomotive force is the largest, over points and over numbers of layers from the first one, of the net
ampere turns of these layers, windings that are not primary against the others. -/
theorem magnetomotive_spec (physical : ℕ → List K → ℤ) (primary : ℕ → Bool) (layers : List (Option (Layer K))) (ops : List (ℕ → K)) :
    (∀ currents ∈ ops, ∀ n : Nat, |netForce physical primary currents layers n| ≤ magnetomotiveForce physical primary layers ops) ∧
      (magnetomotiveForce physical primary layers ops = 0 ∨ ∃ currents ∈ ops, ∃ n : Nat, n ≤ layers.length ∧
        magnetomotiveForce physical primary layers ops = |netForce physical primary currents layers n|) := by
  have hfold : magnetomotiveForce physical primary layers ops =
      (ops.map fun currents => pointForce (forces physical primary currents 0 layers)).foldl max 0 := by
    unfold magnetomotiveForce; rw [List.foldl_map]
  have hpoint : ∀ currents : ℕ → K, ∃ f fs, forces physical primary currents 0 layers = f :: fs := by
    intro currents
    cases layers with
    | nil => exact ⟨_, _, rfl⟩
    | cons l layers => cases l <;> exact ⟨_, _, rfl⟩
  obtain ⟨m0, m1, m2⟩ := foldl_max (ops.map fun currents => pointForce (forces physical primary currents 0 layers)) (0 : K)
  rw [hfold]
  constructor
  · intro currents hc n
    obtain ⟨f, fs, he⟩ := hpoint currents
    have hmem : netForce physical primary currents layers n ∈ f :: fs := by
      rw [← he, forces_eq]
      refine List.mem_map.mpr ⟨min n layers.length, List.mem_range.mpr (by omega), ?_⟩
      rw [zero_add]
      unfold netForce
      congr 2
      rcases le_total n layers.length with h | h
      · rw [min_eq_left h]
      · rw [min_eq_right h, List.take_of_length_le h, List.take_length]
    have h1 := (pointForce_spec f fs).1 _ hmem
    rw [← he] at h1
    exact h1.trans (m1 _ (List.mem_map.mpr ⟨currents, hc, rfl⟩))
  · rcases m2 with h | h
    · exact .inl h
    · obtain ⟨currents, hc, he'⟩ := List.mem_map.mp h
      obtain ⟨f, fs, he⟩ := hpoint currents
      obtain ⟨x, hx, hp⟩ := (pointForce_spec f fs).2
      rw [← he, forces_eq] at hx
      obtain ⟨n, hn, rfl⟩ := List.mem_map.mp hx
      refine .inr ⟨currents, hc, n, by have := List.mem_range.mp hn; omega, ?_⟩
      rw [← he', he, hp, zero_add]

open Filters.Gates in
example : magnetomotiveForce (K := ℚ) (fun _ ps => ps.length) (fun w => w == 0)
    [some ⟨0, [1, 1], 1⟩, none, some ⟨1, [1], 1⟩, some ⟨0, [1], 1⟩] [fun _ => 3, fun w => if w = 0 then 1 else 5] = 6 := by decide +kernel

end Verif.Costs
