import Verif.Dataset.Lemmas
import Mathlib.Tactic.Linarith
import Mathlib.Tactic.Positivity
import Mathlib.Tactic.FieldSimp
import Mathlib.Data.Rat.Floor

/-! # Properties of the turns the core adviser starts from -/

namespace Verif.Dataset

set_option linter.unusedSimpArgs false
set_option linter.unusedVariables false
set_option linter.unusedSectionVars false

variable {K : Type} [Field K] [LinearOrder K] [IsStrictOrderedRing K] [FloorRing K]

/-! ## C322: the turns of a transformer -/

/-- The peak of the flux density of `n` turns (Faraday). -/
def peakFlux (area voltSeconds n : K) : K := voltSeconds / (n * area)

/-- **C322.** A transformer starts from the fewest whole turns, at least one, that keep the peak of its flux density within the
density allowed. -/
theorem transformer_fewest (area vs sat margin prop n : K) (h : transformerTurns area vs sat margin prop = some n) :
    (∃ z : ℤ, n = z ∧ 1 ≤ z) ∧ peakFlux area vs n ≤ allowedFlux sat margin prop ∧
    (∀ m : ℤ, 1 ≤ m → (m : K) < n → allowedFlux sat margin prop < peakFlux area vs m) := by
  unfold transformerTurns voltTurns at h
  set b := allowedFlux sat margin prop with hb
  by_cases hc : area ≤ 0 ∨ b ≤ 0 ∨ vs ≤ 0
  · simp [hc] at h
  · simp only [hc, if_false] at h
    push Not at hc
    obtain ⟨ha, hb0, hv⟩ := hc
    by_cases h0 : max 1 ((⌈vs / (b * area)⌉ : ℤ) : K) ≤ 0
    · exact absurd (lt_of_lt_of_le one_pos (le_max_left (1 : K) _)) (not_lt.mpr h0)
    · rw [if_neg h0] at h
      have hn : n = max 1 ((⌈vs / (b * area)⌉ : ℤ) : K) := (Option.some.inj h).symm
      have hq : 0 < vs / (b * area) := by positivity
      have hz : (1 : ℤ) ≤ ⌈vs / (b * area)⌉ := Int.one_le_ceil_iff.mpr hq
      have hz' : (1 : K) ≤ ((⌈vs / (b * area)⌉ : ℤ) : K) := by exact_mod_cast hz
      rw [max_eq_right hz'] at hn
      refine ⟨⟨_, hn, hz⟩, ?_, ?_⟩
      · have hn0 : 0 < n := by rw [hn]; linarith
        have hle : vs / (b * area) ≤ n := by rw [hn]; exact Int.le_ceil _
        unfold peakFlux
        rw [div_le_iff₀ (by positivity)]
        rw [div_le_iff₀ (by positivity)] at hle
        calc vs ≤ n * (b * area) := hle
          _ = b * (n * area) := by ring
      · intro m hm hmn
        rw [hn] at hmn
        have hmz : m < ⌈vs / (b * area)⌉ := by exact_mod_cast hmn
        have hlt : (m : K) < vs / (b * area) := Int.lt_ceil.mp hmz
        have hm0 : (0 : K) < m := by
          have : (1 : K) ≤ (m : K) := by exact_mod_cast hm
          linarith
        unfold peakFlux
        rw [lt_div_iff₀ (by positivity)]
        rw [lt_div_iff₀ (by positivity)] at hlt
        calc b * (m * area) = m * (b * area) := by ring
          _ < vs := hlt

example : transformerTurns (K := ℚ) 1 7 3 (6/5) (7/10) = some 4 := by decide +kernel

/-- **C322.** The candidate is dropped exactly when there are no volt-seconds, no area or no density allowed; no turns are made
up. -/
theorem transformer_dropped_iff (area vs sat margin prop : K) :
    transformerTurns area vs sat margin prop = none ↔ area ≤ 0 ∨ allowedFlux sat margin prop ≤ 0 ∨ vs ≤ 0 := by
  unfold transformerTurns voltTurns
  by_cases hc : area ≤ 0 ∨ allowedFlux sat margin prop ≤ 0 ∨ vs ≤ 0
  · simp [hc]
  · simp only [hc, if_false, iff_false]
    rw [if_neg]
    · simp
    · exact not_le.mpr (lt_of_lt_of_le one_pos (le_max_left (1 : K) _))

/-- **C322.** The density allowed is within both the margin of saturation and the proportion of it. -/
theorem allowed_within (sat margin prop : K) (hs : 0 ≤ sat) (hm : 0 < margin) :
    allowedFlux sat margin prop * margin ≤ sat ∧ allowedFlux sat margin prop ≤ prop * sat := by
  unfold allowedFlux
  constructor
  · have : min (1 / margin) prop * margin ≤ 1 := by
      calc min (1 / margin) prop * margin ≤ 1 / margin * margin := by
            exact mul_le_mul_of_nonneg_right (min_le_left _ _) hm.le
        _ = 1 := by field_simp
    calc sat * min (1 / margin) prop * margin = sat * (min (1 / margin) prop * margin) := by ring
      _ ≤ sat * 1 := mul_le_mul_of_nonneg_left this hs
      _ = sat := mul_one _
  · calc sat * min (1 / margin) prop ≤ sat * prop := mul_le_mul_of_nonneg_left (min_le_right _ _) hs
      _ = prop * sat := mul_comm _ _

/-! ## C323: the gap that does not saturate -/

variable {C : Type}

/-- **C323.** Every step of the search tries more turns than the one before. -/
theorem turns_grow (required n current : K) (hn : 0 < n) (hc : 0 < current) (hr : current < required) :
    n < nextTurns required n current := by
  have h1 : n < n * (required / current) := by
    have : 1 < required / current := (one_lt_div hc).mpr hr
    nlinarith
  unfold nextTurns
  split
  · linarith
  · exact lt_of_lt_of_le h1 (Int.le_ceil _)

/-- A core is of the turns it is kept with: the gap was solved for them. -/
def Solved (attempt : ℤ → Option (C × K)) (n : K) (core : C) : Prop :=
  ∃ current : K, attempt (Round.round n) = some (core, current) ∧ 0 < current

theorem loop_solved (attempt : ℤ → Option (C × K)) (required : K)
    (hall : ∀ m : ℤ, ∃ r : C × K, attempt m = some r ∧ 0 < r.2) :
    ∀ (steps : Nat) (n current : K) (acc : Option C), (∀ c, acc = some c → Solved attempt n c) →
      (∀ c, (regapLoop attempt required steps n current acc).2 = some c →
        Solved attempt (regapLoop attempt required steps n current acc).1 c) := by
  intro steps
  induction steps with
  | zero => intro n current acc h c hc; exact h c hc
  | succ steps ih =>
    intro n current acc h c hc
    obtain ⟨⟨core, next⟩, ha, hpos⟩ := hall (Round.round (nextTurns required n current))
    rw [regapLoop] at hc ⊢
    simp only [ha] at hc ⊢
    rw [if_neg (not_le.mpr hpos)] at hc ⊢
    by_cases hr : required ≤ next
    · rw [if_pos hr] at hc ⊢
      cases hc
      exact ⟨next, ha, hpos⟩
    · rw [if_neg hr] at hc ⊢
      exact ih _ _ _ (fun d hd => by cases hd; exact ⟨next, ha, hpos⟩) c hc

/-- **C323.** If the gap can be solved for every number of turns, the turns and the gap the candidate is left with belong
together. -/
theorem regap_together_partial (attempt : ℤ → Option (C × K)) (required turns : K) (core : C) (seeded : Option K)
    (hall : ∀ m : ℤ, ∃ r : C × K, attempt m = some r ∧ 0 < r.2) :
    regap attempt required turns core seeded = (turns, core) ∨
    Solved attempt (regap attempt required turns core seeded).1 (regap attempt required turns core seeded).2 := by
  unfold regap
  cases seeded with
  | none => left; rfl
  | some current =>
    simp only
    by_cases hc : 0 < current ∧ current < required
    · rw [if_pos hc]
      have h := loop_solved attempt required hall maximumSteps turns current none (by intro c hc; cases hc)
      cases hr : regapLoop attempt required maximumSteps turns current none with
      | mk n acc =>
        cases acc with
        | none => left; rfl
        | some c =>
          right
          have := h c (by rw [hr])
          rw [hr] at this
          exact this
    · rw [if_neg hc]; left; rfl

/-- A solver for the examples: the gap of `m` turns is `m`, with less current than proportional, and none fits from 25 turns. -/
def shortColumn (m : ℤ) : Option (ℤ × ℚ) := if m < 25 then some (m, 2 * m / 25) else none

/-- **C323.** It is not so once a step fails: the candidate keeps the turns of the step that failed with the gap of the step
before. -/
theorem regap_torn :
    regap shortColumn 2 10 (0 : ℤ) (some 1) = (25, 20) ∧ ¬ Solved shortColumn (25 : ℚ) (20 : ℤ) := by
  constructor
  · decide +kernel
  · rintro ⟨current, h, _⟩
    have : Round.round (25 : ℚ) = 25 := by decide +kernel
    rw [this] at h
    have h2 : shortColumn 25 = none := by decide +kernel
    rw [h2] at h
    cases h

/-- **C323.** Where the current that saturates is proportional to the turns, as at a constant inductance, the first step is
enough, and the candidate saturates at no less than the current required. -/
theorem regap_one_step (attempt : ℤ → Option (C × K)) (g required turns : K) (core : C) (hg : 0 < g) (ht : 0 < turns)
    (hr : g * turns < required) (solved : ℤ → C) (hall : ∀ m : ℤ, attempt m = some (solved m, g * m))
    (hi : ∃ z : ℤ, turns = z) :
    ∃ m : ℤ, regap attempt required turns core (some (g * turns)) = ((m : K), solved m) ∧ required ≤ g * m := by
  have hc : 0 < g * turns := mul_pos hg ht
  have hdiv : turns * (required / (g * turns)) = required / g := by field_simp
  set m : ℤ := ⌈required / g⌉ with hm
  have hle : required ≤ g * m := by
    have := Int.le_ceil (required / g)
    rw [div_le_iff₀ hg] at this
    calc required ≤ (m : K) * g := this
      _ = g * m := mul_comm _ _
  have hlt : turns < m := by
    have : turns * g < m * g := by
      calc turns * g = g * turns := mul_comm _ _
        _ < required := hr
        _ ≤ g * m := hle
        _ = m * g := mul_comm _ _
    exact lt_of_mul_lt_mul_right this hg.le
  obtain ⟨z, rfl⟩ := hi
  have hzm : z < m := by exact_mod_cast hlt
  have hnext : nextTurns required (z : K) (g * z) = (m : K) := by
    unfold nextTurns
    rw [hdiv, Round.round_intCast, Round.round_intCast, if_neg (by rw [← hm]; omega)]
  refine ⟨m, ?_, hle⟩
  have hpos : ¬ (g * (m : K)) ≤ 0 := not_le.mpr (by linarith)
  have hl : regapLoop attempt required maximumSteps (z : K) (g * z) none = ((m : K), some (solved m)) := by
    unfold maximumSteps
    rw [regapLoop, hnext, Round.round_intCast, hall]
    simp only
    rw [if_neg hpos, if_pos hle]
  unfold regap
  simp only
  rw [if_pos ⟨hc, hr⟩, hl]

example : ∃ m : ℤ, regap (K := ℚ) (fun m => some (m, (1/10) * m)) 2 10 (0 : ℤ) (some ((1/10) * 10)) = ((m : ℚ), m) ∧ 2 ≤ (1/10) * (m : ℚ) :=
  regap_one_step (K := ℚ) _ (1/10) 2 10 0 (by norm_num) (by norm_num) (by norm_num) (fun m => m) (fun m => rfl) ⟨10, by norm_num⟩

/-- **C323.** A candidate that does not saturate, or whose current of saturation is not known, is left as it came. -/
theorem regap_untouched (attempt : ℤ → Option (C × K)) (required turns : K) (core : C) (seeded : Option K)
    (h : ∀ current, seeded = some current → current ≤ 0 ∨ required ≤ current) :
    regap attempt required turns core seeded = (turns, core) := by
  unfold regap
  cases seeded with
  | none => rfl
  | some current =>
    simp only
    rw [if_neg]
    rintro ⟨h1, h2⟩
    rcases h current rfl with h | h
    · exact absurd h1 (not_lt.mpr h)
    · exact absurd h2 (not_lt.mpr h)

/-! ## C324: candidates that cannot be sized -/

/-- **C324.** Candidates whose sizing fails with an exception of the library are dropped, and only they: the others are sized
and keep their order. -/
theorem sized_exactly {E : Type} (size : E → Sizing E) (xs : List E) (h : ∀ x ∈ xs, size x ≠ .foreign) :
    sizeAll size xs = .ok (xs.filterMap (fun x => match size x with | .sized y => some y | _ => none)) := by
  obtain ⟨⟨ys, is⟩, hr⟩ := loop_ok size xs 0 h
  unfold sizeAll
  rw [hr]
  have := erase_loop size (fun x => match size x with | .sized y => some y | _ => none) (fun x => rfl) xs 0 ys is hr [] rfl
  simp only [List.nil_append] at this
  simp only [this]

example : (match sizeAll (fun n : ℕ => if n % 2 = 0 then .sized (n + 10) else .dropped) [1, 2, 3, 5, 4] with
    | .ok l => l | .error _ => []) = [12, 14] := by decide

/-- **C324.** An exception of another kind, wherever it comes from, ends the advice: no list is made, and the caller is left with
all the candidates, those before sized and none of them erased. -/
theorem foreign_aborts {E : Type} (size : E → Sizing E) (pre post : List E) (x : E) (h : size x = .foreign)
    (hp : ∀ y ∈ pre, size y ≠ .foreign) :
    sizeAll size (pre ++ x :: post) =
      .error (pre.map (fun y => match size y with | .sized z => z | _ => y) ++ x :: post) := by
  have key : ∀ (pre : List E) (i : Nat), (∀ y ∈ pre, size y ≠ .foreign) → sizeLoop size i (pre ++ x :: post) =
      .error (pre.map (fun y => match size y with | .sized z => z | _ => y) ++ x :: post) := by
    intro pre
    induction pre with
    | nil => intro i _; rw [List.nil_append, sizeLoop, h]; rfl
    | cons y ys ih =>
      intro i hy
      have h1 := ih (i + 1) (fun z hz => hy z (List.mem_cons_of_mem _ hz))
      have h2 := hy y (List.mem_cons_self ..)
      rw [List.cons_append, sizeLoop, h1, List.map_cons]
      cases hs : size y with
      | foreign => exact absurd hs h2
      | sized z => rfl
      | dropped => rfl
  unfold sizeAll
  rw [key pre 0 hp]

/-! ## C325: the inductance of an impedance -/

theorem equivalent_fold (twoPi : K) (specs : List (K × K)) : ∀ l : K,
    l ≤ specs.foldl (fun l s => if 0 < s.1 then max l (s.2 / (twoPi * s.1)) else l) l ∧
    (∀ s ∈ specs, 0 < s.1 → s.2 / (twoPi * s.1) ≤ specs.foldl (fun l s => if 0 < s.1 then max l (s.2 / (twoPi * s.1)) else l) l) ∧
    (specs.foldl (fun l s => if 0 < s.1 then max l (s.2 / (twoPi * s.1)) else l) l = l ∨
      ∃ s ∈ specs, 0 < s.1 ∧ specs.foldl (fun l s => if 0 < s.1 then max l (s.2 / (twoPi * s.1)) else l) l = s.2 / (twoPi * s.1)) := by
  induction specs with
  | nil => intro l; exact ⟨le_refl _, by simp, Or.inl rfl⟩
  | cons t ts ih =>
    intro l
    rw [List.foldl_cons]
    by_cases h : 0 < t.1
    · rw [if_pos h]
      obtain ⟨h1, h2, h3⟩ := ih (max l (t.2 / (twoPi * t.1)))
      refine ⟨le_trans (le_max_left _ _) h1, ?_, ?_⟩
      · intro s hs h0
        rcases List.mem_cons.mp hs with rfl | hs
        · exact le_trans (le_max_right _ _) h1
        · exact h2 s hs h0
      · rcases h3 with h3 | ⟨s, hs, h0, h3⟩
        · rcases max_choice l (t.2 / (twoPi * t.1)) with hm | hm
          · left; rw [h3, hm]
          · right; exact ⟨t, List.mem_cons_self .., h, by rw [h3, hm]⟩
        · right; exact ⟨s, List.mem_cons_of_mem _ hs, h0, h3⟩
    · rw [if_neg h]
      obtain ⟨h1, h2, h3⟩ := ih l
      refine ⟨h1, ?_, ?_⟩
      · intro s hs h0
        rcases List.mem_cons.mp hs with rfl | hs
        · exact absurd h0 h
        · exact h2 s hs h0
      · rcases h3 with h3 | ⟨s, hs, h0, h3⟩
        · exact Or.inl h3
        · exact Or.inr ⟨s, List.mem_cons_of_mem _ hs, h0, h3⟩

/-- **C325.** The inductance a suppressor is sized for reaches every impedance asked for at its frequency, as `2πfL`, and is the
least that does: none, or that of one of them. Impedances at a frequency of nothing or less are not asked. -/
theorem impedance_reached (twoPi : K) (h2 : 0 < twoPi) (specs : List (K × K)) :
    (∀ s ∈ specs, 0 < s.1 → s.2 ≤ twoPi * s.1 * equivalentInductance twoPi specs) ∧
    (equivalentInductance twoPi specs = 0 ∨
      ∃ s ∈ specs, 0 < s.1 ∧ s.2 = twoPi * s.1 * equivalentInductance twoPi specs) := by
  obtain ⟨_, h, h'⟩ := equivalent_fold twoPi specs 0
  constructor
  · intro s hs h0
    have := h s hs h0
    rw [div_le_iff₀ (by positivity)] at this
    calc s.2 ≤ _ := this
      _ = twoPi * s.1 * equivalentInductance twoPi specs := by rw [mul_comm]; rfl
  · rcases h' with h' | ⟨s, hs, h0, h'⟩
    · exact Or.inl h'
    · refine Or.inr ⟨s, hs, h0, ?_⟩
      have h3 : equivalentInductance twoPi specs = s.2 / (twoPi * s.1) := h'
      rw [h3]
      field_simp

example : equivalentInductance (K := ℚ) 6 [(10, 120), (0, 999), (100, 3000)] = 5 := by decide +kernel

/-- **C325.** The impedances are what a candidate is sized for exactly when it has one turn, is for suppression, is an inductor
and some impedance is asked for; a suppressor taken for a transformer is sized by volt-seconds whatever it is asked for. -/
theorem impedance_sized_iff (turns : K) (inductor suppression : Bool) (l : K) :
    (seedOf turns inductor suppression l = .impedance ↔ turns = 1 ∧ inductor = true ∧ suppression = true ∧ 0 < l) ∧
    (seedOf turns false suppression l = .voltSeconds ↔ turns = 1) := by
  unfold seedOf
  constructor
  · by_cases h : turns = 1 <;> cases inductor <;> cases suppression <;> by_cases hl : 0 < l <;> simp [h, hl]
  · by_cases h : turns = 1 <;> simp [h]

/-! ## C326: the dummy coil -/

/-- **C326.** The dummy coil has one winding, the primary, unless the first operating point is that of a choke, when it has one
for each of its two to four currents; the first is the primary and the names are all different. -/
theorem dummy_windings (sizing choke : Bool) (effective dc : K) (points : Densities K)
    (hc : choke = true → ∃ p ∈ points.head?, 2 ≤ p.length ∧ p.length ≤ 4) :
    (dummyCoil sizing choke effective dc points).length = (if choke then (points.head?.getD []).length else 1) ∧
    ((dummyCoil sizing choke effective dc points).map (·.name)).Nodup ∧
    (dummyCoil sizing choke effective dc points).map (·.primary) =
      (List.range (dummyCoil sizing choke effective dc points).length).map (fun w => decide (w = 0)) ∧
    ((dummyCoil sizing choke effective dc points).head?.map (·.name)) = some "primary" := by
  have hw : dummyWindings choke points = (if choke then (points.head?.getD []).length else 1) ∧
      (dummyWindings choke points = 1 ∨ dummyWindings choke points = 2 ∨ dummyWindings choke points = 3 ∨
        dummyWindings choke points = 4) := by
    unfold dummyWindings
    cases choke with
    | false => simp
    | true =>
      obtain ⟨p, hp, h1, h2⟩ := hc rfl
      cases points with
      | nil => simp at hp
      | cons q qs =>
        simp only [List.head?_cons, Option.mem_def, Option.some.injEq] at hp
        subst hp
        simp only [if_true, List.head?_cons, Option.getD_some, List.getElem?_cons_zero]
        constructor
        · omega
        · omega
  obtain ⟨h1, h2⟩ := hw
  have hn : (dummyCoil sizing choke effective dc points).map (·.name) =
      (List.range (dummyWindings choke points)).map (dummyName (dummyWindings choke points)) := by
    unfold dummyCoil
    rw [List.map_map]; rfl
  refine ⟨by rw [← h1]; simp [dummyCoil], ?_, ?_, ?_⟩
  · rw [hn]
    rcases h2 with h | h | h | h <;> rw [h] <;> decide +kernel
  · unfold dummyCoil
    rw [List.map_map, List.length_map, List.length_range]; rfl
  · rw [← List.head?_map, hn]
    rcases h2 with h | h | h | h <;> rw [h] <;> decide +kernel

example : (dummyCoil (K := ℚ) true true 12 7 [[none, none, none]]).map (·.name) = ["primary", "secondary_1", "secondary_2"] := by
  decide +kernel

/-- **C326.** For power the parallels of the winding share the current of the first operating point within both densities
allowed, and one fewer would not. -/
theorem dummy_density_partial (effective dc : K) (he : 0 < effective) (hd : 0 < dc) (point : List (Option (K × K)))
    (points : Densities K) (w : Nat) (d : K × K) (h : point[w]? = some (some d)) :
    d.1 ≤ effective * dummyParallels true false effective dc (point :: points) w ∧
    d.2 ≤ dc * dummyParallels true false effective dc (point :: points) w ∧
    (∀ n : ℤ, 1 ≤ n → d.1 ≤ effective * n → d.2 ≤ dc * n → dummyParallels true false effective dc (point :: points) w ≤ n) := by
  have hp : dummyParallels true false effective dc (point :: points) w = max 1 (max ⌈d.1 / effective⌉ ⌈d.2 / dc⌉) := by
    simp [dummyParallels, h]
  rw [hp]
  refine ⟨?_, ?_, ?_⟩
  · have h1 : ((⌈d.1 / effective⌉ : ℤ) : K) ≤ ((max 1 (max ⌈d.1 / effective⌉ ⌈d.2 / dc⌉) : ℤ) : K) := by
      exact_mod_cast le_trans (le_max_left _ _) (le_max_right _ _)
    have h2 := le_trans (Int.le_ceil (d.1 / effective)) h1
    rw [div_le_iff₀ he] at h2
    linarith
  · have h1 : ((⌈d.2 / dc⌉ : ℤ) : K) ≤ ((max 1 (max ⌈d.1 / effective⌉ ⌈d.2 / dc⌉) : ℤ) : K) := by
      exact_mod_cast le_trans (le_max_right _ _) (le_max_right _ _)
    have h2 := le_trans (Int.le_ceil (d.2 / dc)) h1
    rw [div_le_iff₀ hd] at h2
    linarith
  · intro n h1 h2 h3
    refine max_le h1 (max_le (Int.ceil_le.mpr ?_) (Int.ceil_le.mpr ?_))
    · rw [div_le_iff₀ he]; linarith
    · rw [div_le_iff₀ hd]; linarith

/-- **C326.** Other operating points are not looked at, however large their current. -/
theorem dummy_first_only (sizing choke : Bool) (effective dc : K) (point : List (Option (K × K))) (points points' : Densities K)
    (w : Nat) : dummyParallels sizing choke effective dc (point :: points) w =
      dummyParallels sizing choke effective dc (point :: points') w := rfl

/-- **C326.** So with a second operating point of ten times the current the wires carry ten times the density allowed. -/
theorem dummy_dense_later :
    dummyParallels (K := ℚ) true false 12 7 [[some (12, 7)], [some (120, 70)]] 0 = 1 ∧ ¬ (120 : ℚ) ≤ 12 * 1 := by
  constructor <;> decide +kernel

/-- **C326.** For suppression and for chokes there is one wire in parallel, whatever the current. -/
theorem dummy_single (sizing choke : Bool) (effective dc : K) (points : Densities K) (w : Nat)
    (h : sizing = false ∨ choke = true) : dummyParallels sizing choke effective dc points w = 1 := by
  unfold dummyParallels
  rw [if_neg]
  rcases h with h | h <;> simp [h]

end Verif.Dataset
