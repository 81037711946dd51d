import Verif.Rings.Lemmas
import Mathlib.Tactic.NormNum
import Mathlib.Tactic.FieldSimp
import Mathlib.Data.List.MinMax

/-! # Properties of the rings of a toroid -/

namespace Verif.Rings

set_option linter.unusedSimpArgs false
set_option linter.unusedSectionVars false
set_option linter.unusedVariables false

variable {K : Type} [Field K] [LinearOrder K] [IsStrictOrderedRing K]

/-! ## Specification -/

/-- An angle of a distance at a radius: it grows with how near the centre is. -/
structure ChordLike (angleOf : K → K → K) : Prop where
  nonneg : ∀ d r, 0 ≤ d → 0 ≤ r → 0 ≤ angleOf d r
  pos : ∀ d r, 0 < d → 0 ≤ r → 0 < angleOf d r
  anti : ∀ d r r', 0 ≤ d → 0 ≤ r → r ≤ r' → angleOf d r' ≤ angleOf d r

/-- The rings from the outermost do not hold more and more. -/
def Shrinking (cap : Nat → Nat) : Prop := ∀ j k, j ≤ k → cap k ≤ cap j

/-! ## Angles -/

theorem quotient_le_one (d r : ℝ) (hr : 0 ≤ r) (h : ¬ (r = 0 ∨ 1 < d / 2 / r)) : 0 < r ∧ d / 2 / r ≤ 1 := by
  push Not at h
  exact ⟨lt_of_le_of_ne hr (Ne.symm h.1), h.2⟩

theorem woundAngle_le (d r : ℝ) : woundAngle d r ≤ 360 := by
  unfold woundAngle
  split
  · exact le_refl _
  · have h1 := Real.arcsin_le_pi_div_two (d / 2 / r)
    have hpi := Real.pi_pos
    rw [div_le_iff₀ hpi]
    nlinarith

/-- **C374.** The angle of a distance at a radius is not negative, at most 360 degrees, positive if the distance is, and does not
grow with the radius nor shrink with the distance. -/
theorem woundAngle_chord : ChordLike woundAngle ∧ (∀ d r, woundAngle d r ≤ 360) ∧
    (∀ d d' r, d ≤ d' → 0 ≤ r → woundAngle d r ≤ woundAngle d' r) := by
  have hpi := Real.pi_pos
  have scale : ∀ x y : ℝ, x ≤ y → 2 * Real.arcsin x * 180 / Real.pi ≤ 2 * Real.arcsin y * 180 / Real.pi := by
    intro x y h
    have := Real.monotone_arcsin h
    rw [div_le_div_iff_of_pos_right hpi]
    linarith
  refine ⟨⟨?_, ?_, ?_⟩, woundAngle_le, ?_⟩
  · intro d r hd hr
    unfold woundAngle
    split
    · norm_num
    · have : 0 ≤ Real.arcsin (d / 2 / r) := Real.arcsin_nonneg.mpr (by positivity)
      positivity
  · intro d r hd hr
    unfold woundAngle
    split
    · norm_num
    · rename_i h
      obtain ⟨hr0, _⟩ := quotient_le_one d r hr h
      have : 0 < Real.arcsin (d / 2 / r) := Real.arcsin_pos.mpr (by positivity)
      positivity
  · intro d r r' hd hr hrr
    by_cases h : r = 0 ∨ 1 < d / 2 / r
    · have : woundAngle d r = 360 := by unfold woundAngle; rw [if_pos h]
      rw [this]
      exact woundAngle_le d r'
    · obtain ⟨hr0, h1⟩ := quotient_le_one d r hr h
      have hle : d / 2 / r' ≤ d / 2 / r := div_le_div_of_nonneg_left (by linarith) hr0 hrr
      have h' : ¬ (r' = 0 ∨ 1 < d / 2 / r') := by
        push Not
        exact ⟨ne_of_gt (lt_of_lt_of_le hr0 hrr), le_trans hle h1⟩
      unfold woundAngle
      rw [if_neg h, if_neg h']
      exact scale _ _ hle
  · intro d d' r hd hr
    by_cases h : r = 0 ∨ 1 < d' / 2 / r
    · have : woundAngle d' r = 360 := by unfold woundAngle; rw [if_pos h]
      rw [this]
      exact woundAngle_le d r
    · obtain ⟨hr0, h1⟩ := quotient_le_one d' r hr h
      have hle : d / 2 / r ≤ d' / 2 / r := div_le_div_of_nonneg_right (by linarith) hr
      have h' : ¬ (r = 0 ∨ 1 < d / 2 / r) := by
        push Not
        exact ⟨ne_of_gt hr0, le_trans hle h1⟩
      unfold woundAngle
      rw [if_neg h, if_neg h']
      exact scale _ _ hle

/-- **C374.** A distance no longer than the diameter is the chord of its angle. -/
theorem woundAngle_inverse (d r : ℝ) (hd : 0 ≤ d) (hr : 0 < r) (h : d ≤ 2 * r) : woundDistance (woundAngle d r) r = d := by
  have hq : d / 2 / r ≤ 1 := by rw [div_le_one hr]; linarith
  have h' : ¬ (r = 0 ∨ 1 < d / 2 / r) := by
    push Not
    exact ⟨ne_of_gt hr, hq⟩
  unfold woundAngle woundDistance
  rw [if_neg h']
  have hpi := Real.pi_pos
  have e : 2 * Real.arcsin (d / 2 / r) * 180 / Real.pi / 2 / 180 * Real.pi = Real.arcsin (d / 2 / r) := by field_simp
  rw [e, Real.sin_arcsin (le_trans (by norm_num) (by positivity : (0 : ℝ) ≤ d / 2 / r)) hq]
  field_simp

example : (0 : ℝ) ≤ 1 ∧ (0 : ℝ) < 5 ∧ (1 : ℝ) ≤ 2 * 5 := by norm_num

/-! ## Distribution of turns -/

/-- **C371.** The turns given to the rings of a section are all its turns, in the least number of rings that hold them. -/
theorem turns_distributed (cap : Nat → Nat) (hcap : ∀ k, 1 ≤ cap k) (turns : Nat) :
    (distribute cap turns).sum = turns ∧
    (turns ≤ ((List.range (distribute cap turns).length).map cap).sum) ∧
    (∀ n, turns ≤ ((List.range n).map cap).sum → (distribute cap turns).length ≤ n) := by
  obtain ⟨h1, h2, h3, _, h5⟩ := fill_spec cap turns 0
  have hroom : ∀ n k, room cap k n = ((List.range n).map fun j => cap (k + j)).sum := by
    intro n
    induction n with
    | zero => intro k; rfl
    | succ n ih =>
      intro k
      rw [List.range_succ_eq_map]
      simp only [room, List.map_cons, List.map_map, List.sum_cons, Nat.add_zero]
      rw [ih (k + 1), Nat.max_eq_right (hcap k)]
      congr 2
      apply List.map_congr_left
      intro j _
      simp only [Function.comp]
      congr 1
      omega
  have hroom0 : ∀ n, room cap 0 n = ((List.range n).map cap).sum := by
    intro n
    rw [hroom n 0]
    congr 1
    apply List.map_congr_left
    intro j _
    congr 1
    omega
  have hlen : (distribute cap turns).length = (fill cap 0 turns).length := by
    unfold distribute
    simp only [shave_length, List.length_map]
  refine ⟨?_, ?_, ?_⟩
  · by_cases ht : turns = 0
    · subst ht
      simp [distribute, fill_zero, shave]
    · obtain ⟨n, hn, _⟩ := h5 (Nat.pos_of_ne_zero ht)
      unfold distribute
      simp only []
      have hl : ((fill cap 0 turns).map Int.ofNat).length = (fill cap 0 turns).length := by simp
      have := shave_sum ((fill cap 0 turns).sum - turns) ((fill cap 0 turns).map Int.ofNat) ((fill cap 0 turns).length - 1)
        (by rw [hl]; clear h5; omega)
      rw [hl] at this
      rw [this]
      have hs : ∀ l : List Nat, (l.map Int.ofNat).sum = (l.sum : Int) := by
        intro l
        induction l with
        | nil => rfl
        | cons a r ih => simp [ih]
      rw [hs]
      clear h5
      omega
  · rw [hlen, ← hroom0, ← h1]; exact h2
  · intro n hn
    rw [hlen]
    exact h3 n (by rw [hroom0]; exact hn)

/-- **C372 (partial).** When no ring holds more than one farther out, every ring gets at least one turn and no more than it
holds. Missing: rings of which slots are blocked, for which it is false. -/
theorem turns_fit_partial (cap : Nat → Nat) (hcap : ∀ k, 1 ≤ cap k) (hs : Shrinking cap) (turns i : Nat) (y : Int)
    (h : (distribute cap turns)[i]? = some y) : 1 ≤ y ∧ y ≤ cap i := by
  obtain ⟨h1, h2, h3, h4, h5⟩ := fill_spec cap turns 0
  have hlen : (distribute cap turns).length = (fill cap 0 turns).length := by
    unfold distribute
    simp only [shave_length, List.length_map]
  have hi : i < (fill cap 0 turns).length := by rw [← hlen]; exact (List.getElem?_eq_some_iff.mp h).1
  have hx : (fill cap 0 turns)[i]? = some (fill cap 0 turns)[i] := List.getElem?_eq_getElem hi
  have hc := h4 i _ hx
  rw [Nat.zero_add, Nat.max_eq_right (hcap i)] at hc
  have hm : ((fill cap 0 turns).map Int.ofNat)[i]? = some (Int.ofNat (fill cap 0 turns)[i]) := by rw [List.getElem?_map, hx]; rfl
  unfold distribute at h
  simp only [] at h
  obtain ⟨b1, b2⟩ := shave_bounds _ _ _ _ i _ y hm h
  have ht : 0 < turns := by
    by_contra hn
    have : turns = 0 := by omega
    rw [this, fill_zero] at hi
    simp at hi
  obtain ⟨n, hn, hlt⟩ := h5 ht
  clear h5
  rw [Nat.zero_add, Nat.max_eq_right (hcap n)] at hlt
  have hin := hs i n (by omega)
  rw [hc] at b1 b2
  simp only [Int.ofNat_eq_natCast] at b1 b2
  constructor <;> omega

/-- A wire of width and height 1 in a section of one radian, with slots of its outer rings blocked. -/
def blockedShape : Shape ℚ := ⟨1, 1, 10, [8, 8, 2]⟩

/-- **C372, negation.** When leads block slots of the outer rings, a ring may get a negative number of turns. -/
theorem negative_turns : distribute (capacity (fun d r : ℚ => d / r) blockedShape 1) 4 = [1, -1, 4] := by
  have c0 : capacity (fun d r : ℚ => d / r) blockedShape 1 0 = 2 := by decide +kernel
  have c1 : capacity (fun d r : ℚ => d / r) blockedShape 1 1 = 1 := by decide +kernel
  have c2 : capacity (fun d r : ℚ => d / r) blockedShape 1 2 = 6 := by decide +kernel
  unfold distribute
  have hf : fill (capacity (fun d r : ℚ => d / r) blockedShape 1) 0 4 = [2, 1, 6] := by
    rw [fill_pos _ _ _ (by norm_num), c0, fill_pos _ _ _ (by norm_num), c1, fill_pos _ _ _ (by norm_num), c2]
    norm_num
    exact fill_zero _ _
  rw [hf]
  decide +kernel

/-! ## Capacity of rings -/

theorem capacity_pos [FloorRing K] (angleOf : K → K → K) (s : Shape K) (angle : K) (k : Nat) : 1 ≤ capacity angleOf s angle k := by
  unfold capacity ringTurns
  omega

/-- **C373.** No ring reaches the centre: rings shrink by the width of the wire as long as that leaves some radius. -/
theorem radius_positive {K : Type} [Field K] [LinearOrder K] [IsStrictOrderedRing K] {w r0 : K} (hw : 0 < w) (h : 0 < r0) :
    ∀ k : Nat, 0 < radius w r0 k ∧ ((k : K) * w < r0 → radius w r0 k = r0 - k * w)
  | 0 => by simp [radius, h]
  | k + 1 => by
    obtain ⟨ih1, ih2⟩ := radius_positive hw h k
    have step : radius w r0 (k + 1) = if w < radius w r0 k then radius w r0 k - w else radius w r0 k := rfl
    constructor
    · rw [step]
      split_ifs with c
      · linarith
      · exact ih1
    · intro hk
      push_cast at hk ⊢
      have e := ih2 (by linarith)
      rw [step, if_pos (by rw [e]; linarith), e]
      ring

/-- **C373.** When no slots are blocked, no ring holds more turns than one farther out, and a ring that holds more than one turn
has the angle for them. -/
theorem capacity_shrinks [FloorRing K] (angleOf : K → K → K) (hc : ChordLike angleOf) (s : Shape K) (hb : s.blocked = [])
    (hw : 0 < s.width) (hh : 0 < s.height) (angle : K) :
    Shrinking (capacity angleOf s angle) ∧
    ∀ k, 1 < capacity angleOf s angle k →
      capacity angleOf s angle k * angleOf s.height (max s.width (radius s.width s.first k)) ≤ angle := by
  have hmax : ∀ k, 0 < max s.width (radius s.width s.first k) := fun k => lt_max_of_lt_left hw
  constructor
  · intro j k hjk
    unfold capacity
    rw [hb]
    simp only [List.getElem?_nil, Option.getD_none]
    have hr : max s.width (radius s.width s.first k) ≤ max s.width (radius s.width s.first j) :=
      max_le_max (le_refl _) (radius_le s.width s.first (le_of_lt hw) j k hjk)
    have hwa := hc.anti s.height _ _ (le_of_lt hh) (le_of_lt (hmax k)) hr
    have hp := hc.pos s.height _ hh (le_of_lt (hmax j))
    by_cases ha : 0 ≤ angle
    · exact ringTurns_mono angle angle _ _ 0 hp hwa (le_refl _) (Or.inl ha)
    · push Not at ha
      have hneg : ∀ wa : K, 0 < wa → ringTurns angle wa 0 = 1 := by
        intro wa hwa
        unfold ringTurns
        have : ⌊angle / wa⌋ < 0 := by rw [Int.floor_lt]; simpa using div_neg_of_neg_of_pos ha hwa
        rw [max_eq_left (by omega)]
        rfl
      rw [hneg _ hp, hneg _ (lt_of_lt_of_le hp hwa)]
  · intro k hk
    have hp := hc.pos s.height _ hh (le_of_lt (hmax k))
    unfold capacity ringTurns at hk ⊢
    rw [hb] at hk ⊢
    simp only [List.getElem?_nil, Option.getD_none, sub_zero] at hk ⊢
    have hf : 1 < ⌊angle / angleOf s.height (max s.width (radius s.width s.first k))⌋ := by omega
    rw [max_eq_right (by omega)]
    have hcast : (((⌊angle / angleOf s.height (max s.width (radius s.width s.first k))⌋).toNat : Nat) : K) =
        ((⌊angle / angleOf s.height (max s.width (radius s.width s.first k))⌋ : Int) : K) := by
      rw [← Int.cast_natCast, Int.toNat_of_nonneg (by omega)]
    rw [hcast]
    have := Int.floor_le (angle / angleOf s.height (max s.width (radius s.width s.first k)))
    rwa [le_div_iff₀ hp] at this

/-- **C372, C373.** When no slots are blocked, every ring of a section of a toroid gets at least one turn and no more than it holds. -/
theorem rings_fit (s : Shape ℝ) (hb : s.blocked = []) (hw : 0 < s.width) (hh : 0 < s.height) (angle : ℝ) (turns i : Nat) (y : Int)
    (h : (distribute (capacity woundAngle s angle) turns)[i]? = some y) : 1 ≤ y ∧ y ≤ capacity woundAngle s angle i :=
  turns_fit_partial _ (capacity_pos woundAngle s angle) (capacity_shrinks woundAngle woundAngle_chord.1 s hb hw hh angle).1 turns i y h

example : (⟨1, 1, 10, []⟩ : Shape ℚ).blocked = [] ∧ (0 : ℚ) < (⟨1, 1, 10, []⟩ : Shape ℚ).width := ⟨rfl, by norm_num⟩

/-! ## Planning of a section -/

theorem planLoop_ends (angle : K) (rings : K → Nat) (margins : Nat → Option (K × K)) (B : Nat)
    (hr : ∀ a b, a ≤ b → rings b ≤ rings a)
    (hB : ∀ n, B < n → margins n = none)
    (hm : ∀ n n' p p', n ≤ n' → margins n = some p → margins n' = some p' → p.1 ≤ p'.1 ∧ p.2 ≤ p'.2) :
    ∀ (fuel n : Nat) (mg : K × K), B + 1 ≤ n + fuel → 1 ≤ fuel → margins n = some mg → n ≤ rings (angle - mg.1 - mg.2) →
      ∃ r, planLoop angle rings margins fuel (some n) mg = some r := by
  intro fuel
  induction fuel with
  | zero => intro n mg _ h; omega
  | succ f ih =>
    intro n mg hf _ hn hle
    rw [planLoop]
    cases hmn : margins (rings (angle - mg.1 - mg.2)) with
    | none => exact ⟨_, rfl⟩
    | some mg' =>
      simp only []
      by_cases he : some n = some (rings (angle - mg.1 - mg.2))
      · rw [if_pos he]; exact ⟨_, rfl⟩
      · rw [if_neg he]
        have hne : n ≠ rings (angle - mg.1 - mg.2) := fun e => he (by rw [← e])
        have hBn : rings (angle - mg.1 - mg.2) ≤ B := by
          by_contra hc
          rw [hB _ (by omega)] at hmn
          cases hmn
        obtain ⟨g1, g2⟩ := hm _ _ _ _ hle hn hmn
        refine ih _ mg' (by omega) (by omega) hmn (hr _ _ (by linarith))

theorem plan_settled_aux {K : Type} [Field K] [LinearOrder K] [IsStrictOrderedRing K] (angle : K) (rings : K → Nat)
    (margins : Nat → Option (K × K)) : ∀ (fuel : Nat) (prev : Option Nat) (mg : K × K) (n : Nat) (r : K × K),
    (∀ p, prev = some p → margins p = some mg) → planLoop angle rings margins fuel prev mg = some (n, r) →
      n = rings (angle - r.1 - r.2) ∧ (margins n = some r ∨ margins n = none)
  | 0, prev, mg, n, r, _, h => by simp [planLoop] at h
  | fuel + 1, prev, mg, n, r, hp, h => by
    unfold planLoop at h
    cases hm : margins (rings (angle - mg.1 - mg.2)) with
    | none =>
      rw [hm] at h
      simp only [Option.some.injEq, Prod.mk.injEq] at h
      obtain ⟨h1, h2⟩ := h
      subst h1 h2
      exact ⟨rfl, Or.inr hm⟩
    | some mg' =>
      rw [hm] at h
      by_cases hc : prev = some (rings (angle - mg.1 - mg.2))
      · simp only [if_pos hc, Option.some.injEq, Prod.mk.injEq] at h
        obtain ⟨h1, h2⟩ := h
        have he := hp _ hc
        rw [hm, Option.some.injEq] at he
        subst h1 h2 he
        exact ⟨rfl, Or.inl hm⟩
      · simp only [if_neg hc] at h
        refine plan_settled_aux angle rings margins fuel _ mg' n r ?_ h
        intro p e
        rw [← Option.some.inj e]
        exact hm

/-- **C375.** When the search ends its rings are those needed in the angle its margins leave, and its margins are those at the
last of its rings, unless the rings go beyond the centre. -/
theorem plan_settled {K : Type} [Field K] [LinearOrder K] [IsStrictOrderedRing K] (angle : K) (rings : K → Nat)
    (angleOf : K → K → K) (outer start w m0 m1 : K) (fuel n : Nat) (r : K × K)
    (h : planLoop angle rings (marginAngles angleOf outer start w m0 m1) fuel none (0, 0) = some (n, r)) :
    n = rings (angle - r.1 - r.2) ∧
      (start + n * w ≤ outer → r = (angleOf m0 (outer - (start + n * w)), angleOf m1 (outer - (start + n * w)))) := by
  obtain ⟨h1, h2⟩ := plan_settled_aux angle rings _ fuel none (0, 0) n r (by intro p e; cases e) h
  refine ⟨h1, fun hle => ?_⟩
  have hm : marginAngles angleOf outer start w m0 m1 n =
      some (angleOf m0 (outer - (start + n * w)), angleOf m1 (outer - (start + n * w))) := if_neg (not_lt.mpr (by linarith))
  rw [hm] at h2
  rcases h2 with h2 | h2
  · exact (Option.some.inj h2).symm
  · cases h2

example : planLoop (K := ℚ) 90 (fun a => if a < 80 then 2 else 1) (marginAngles (fun d r => d / r) 10 0 1 36 36) 5 none (0, 0) =
    some (1, (4, 4)) := by decide +kernel

/-- **C375.** The search for the rings and the margins of a section of a toroid ends, whatever its wire, angle, turns, margins
and blocked slots, after no more rounds than rings fit to the centre and two more. -/
theorem section_planned (s : Shape ℝ) (outer start m0 m1 angle : ℝ) (hw : 0 < s.width) (hh : 0 < s.height) (h0 : 0 ≤ m0)
    (h1 : 0 ≤ m1) (turns : Nat) :
    ∃ r, planLoop angle (fun a => (distribute (capacity woundAngle s a) turns).length)
      (marginAngles woundAngle outer start s.width m0 m1) (⌊(outer - start) / s.width⌋₊ + 2) none (0, 0) = some r := by
  have hlen : ∀ a, (distribute (capacity woundAngle s a) turns).length = (fill (capacity woundAngle s a) 0 turns).length := by
    intro a
    unfold distribute
    simp only [shave_length, List.length_map]
  have hr : ∀ a b : ℝ, a ≤ b → (distribute (capacity woundAngle s b) turns).length ≤ (distribute (capacity woundAngle s a) turns).length := by
    intro a b hab
    rw [hlen, hlen]
    refine fill_length_anti _ _ (fun k => ?_) turns 0
    unfold capacity
    have hp := woundAngle_chord.1.pos s.height (max s.width (radius s.width s.first k)) hh (le_of_lt (lt_max_of_lt_left hw))
    exact ringTurns_mono b a _ _ _ hp (le_refl _) hab (Or.inr rfl)
  have hdef : ∀ n p, marginAngles woundAngle outer start s.width m0 m1 n = some p →
      0 ≤ outer - (start + n * s.width) ∧
      p = (woundAngle m0 (outer - (start + n * s.width)), woundAngle m1 (outer - (start + n * s.width))) := by
    intro n p hp
    unfold marginAngles at hp
    split at hp
    · cases hp
    · rename_i hn
      push Not at hn
      cases hp
      exact ⟨hn, rfl⟩
  have hB : ∀ n, ⌊(outer - start) / s.width⌋₊ < n → marginAngles woundAngle outer start s.width m0 m1 n = none := by
    intro n hn
    unfold marginAngles
    have := Nat.lt_of_floor_lt hn
    rw [div_lt_iff₀ hw] at this
    rw [if_pos (by linarith)]
  have hm : ∀ n n' p p', n ≤ n' → marginAngles woundAngle outer start s.width m0 m1 n = some p →
      marginAngles woundAngle outer start s.width m0 m1 n' = some p' → p.1 ≤ p'.1 ∧ p.2 ≤ p'.2 := by
    intro n n' p p' hn hp hp'
    obtain ⟨a1, e1⟩ := hdef n p hp
    obtain ⟨a2, e2⟩ := hdef n' p' hp'
    have hcast : (n : ℝ) ≤ n' := by exact_mod_cast hn
    have hle : outer - (start + n' * s.width) ≤ outer - (start + n * s.width) := by nlinarith
    rw [e1, e2]
    exact ⟨woundAngle_chord.1.anti m0 _ _ h0 a2 hle, woundAngle_chord.1.anti m1 _ _ h1 a2 hle⟩
  rw [planLoop]
  cases hmn : marginAngles woundAngle outer start s.width m0 m1 ((distribute (capacity woundAngle s (angle - (0 : ℝ) - 0)) turns).length) with
  | none => exact ⟨_, rfl⟩
  | some mg =>
    simp only [reduceCtorEq, if_false]
    obtain ⟨a1, e1⟩ := hdef _ _ hmn
    refine planLoop_ends angle _ _ ⌊(outer - start) / s.width⌋₊ hr hB hm _ _ mg (by omega) (by omega) hmn (hr _ _ ?_)
    rw [e1]
    have n0 := woundAngle_chord.1.nonneg m0 _ h0 a1
    have n1 := woundAngle_chord.1.nonneg m1 _ h1 a1
    show angle - _ - _ ≤ angle - (0 : ℝ) - 0
    linarith

/-! ## Layers -/

/-- **C376 (partial).** When the section asks for no number of layers and an average layer holds some turn, the layers of the
section have all its turns, or it is refused. Missing: sections that ask for a number of layers, or so narrow that an average
layer holds no turn, for which it is false. -/
theorem all_placed_partial (cap : Nat → Nat) (hcap : ∀ k, 1 ≤ cap k) (turns fitting perLayer : Nat) (hp : perLayer ≠ 0) :
    layersOf fitting perLayer none (distribute cap turns) turns = .refused ∨
    ∃ l, layersOf fitting perLayer none (distribute cap turns) turns = .layers l ∧ l.sum = turns ∧
      (fitting ≠ 0 → l.length ≤ fitting) := by
  obtain ⟨hs, _, hmin⟩ := turns_distributed cap hcap turns
  have hlen : (distribute cap turns).length ≤ turns := by
    refine hmin turns ?_
    have : ∀ n, n ≤ ((List.range n).map cap).sum := by
      intro n
      induction n with
      | zero => simp
      | succ n ih =>
        rw [List.range_succ, List.map_append, List.sum_append]
        have := hcap n
        simp
        omega
    exact this turns
  unfold layersOf layerNumber
  simp only [Option.getD_none]
  by_cases hf : fitting = 0
  · right
    simp only [hf, if_true, Nat.min_eq_left hlen, Nat.not_lt_zero, if_false, Nat.lt_irrefl, List.take_length]
    exact ⟨_, rfl, hs, fun h => absurd rfl h⟩
  · simp only [hf, hp, if_false]
    by_cases hn : min (min (distribute cap turns).length fitting) turns < (distribute cap turns).length
    · left; rw [if_pos hn]
    · right
      rw [if_neg hn]
      have e : min (min (distribute cap turns).length fitting) turns = (distribute cap turns).length := by omega
      rw [e, if_neg (Nat.lt_irrefl _), List.take_length]
      exact ⟨_, rfl, hs, fun _ => by omega⟩

/-- **C376, negation.** A section that asks for more layers than its turns need, as it may be read from a file, makes a vector be
read beyond its end. -/
theorem asked_beyond (fitting perLayer asked turns : Nat) (rings : List Int) (hf : fitting ≠ 0) (hp : perLayer ≠ 0)
    (h1 : rings.length < asked) (h2 : rings.length < turns) : layersOf fitting perLayer (some asked) rings turns = .ub := by
  unfold layersOf layerNumber
  simp only [Option.getD_some, hf, hp, if_false]
  rw [if_neg (by omega), if_pos (by omega)]

example : layersOf 4 20 (some 2) [20] 20 = .ub := by decide

/-- **C376, negation.** In a section too narrow for a turn in an average layer, turns beyond the layers that fit are lost. -/
theorem turns_lost : layersOf 10 0 none (distribute (fun _ => 1) 12) 12 = .layers (List.replicate 10 1) := by
  have hf : ∀ n k, fill (fun _ => 1) k n = List.replicate n 1 := by
    intro n
    induction n with
    | zero => intro k; exact fill_zero _ _
    | succ n ih => intro k; rw [fill_pos _ _ _ (by omega)]; simp [List.replicate_succ, ih]
  have : distribute (fun _ => 1) 12 = List.replicate 12 1 := by
    unfold distribute
    simp only [hf]
    decide
  rw [this]
  decide

/-- **C378.** When parallels are wound side by side in a toroid and every layer has some turn, every layer holds one turn of
each parallel at least. -/
theorem parallels_together (byParallels : Bool) (perLayer parallels : Nat) (rings : List Int) (hpos : ∀ y ∈ rings, 1 ≤ y)
    (h : keepsParallels byParallels perLayer parallels rings = true) :
    byParallels = true ∧ parallels ≤ perLayer ∧ ∀ y ∈ rings, (parallels : Int) ≤ y := by
  have hfold : ∀ (l : List Int) (a : Int), (∀ y ∈ l, l.foldl min a ≤ y) ∧ l.foldl min a ≤ a ∧
      (l.foldl min a = a ∨ l.foldl min a ∈ l) := by
    intro l
    induction l with
    | nil => intro a; exact ⟨by simp, le_refl _, Or.inl rfl⟩
    | cons x r ih =>
      intro a
      obtain ⟨i1, i2, i3⟩ := ih (min a x)
      simp only [List.foldl_cons]
      refine ⟨?_, le_trans i2 (min_le_left _ _), ?_⟩
      · intro y hy
        rcases List.mem_cons.mp hy with e | hy
        · subst e; exact le_trans i2 (min_le_right _ _)
        · exact i1 y hy
      · rcases i3 with e | e
        · rcases min_choice a x with hm | hm
          · left; rw [e, hm]
          · right; rw [e, hm]; exact List.mem_cons_self ..
        · right; exact List.mem_cons_of_mem _ e
  unfold keepsParallels at h
  simp only [Bool.and_eq_true, Bool.not_eq_true', Bool.or_eq_false_iff, decide_eq_false_iff_not, not_lt] at h
  obtain ⟨hb, hp, hl⟩ := h
  refine ⟨hb, hp, ?_⟩
  intro y hy
  cases rings with
  | nil => simp at hy
  | cons x r =>
    rw [Bool.and_eq_false_iff, decide_eq_false_iff_not, decide_eq_false_iff_not] at hl
    simp only [List.headD_cons] at hl
    obtain ⟨i1, i2, i3⟩ := hfold (x :: r) x
    have hmem : (x :: r).foldl min x ∈ x :: r := by
      rcases i3 with e | e
      · rw [e]; exact List.mem_cons_self ..
      · exact e
    have hp1 := hpos _ hmem
    have : ¬ ((x :: r).foldl min x < (parallels : Int)) := by
      intro hlt
      rcases hl with hl | hl
      · exact hl (by omega)
      · exact hl hlt
    exact le_trans (by omega) (i1 y hy)

example : keepsParallels true 10 3 [9, 6, 3] = true ∧ keepsParallels true 10 3 [9, 6, 2] = false := by decide

theorem layerCentre_eq (c h w t : K) (k : Nat) : layerCentre c h w t k = c - h / 2 + w / 2 + k * (w + t) := by
  induction k with
  | zero => simp [layerCentre]
  | succ k ih => simp only [layerCentre, ih]; push_cast; ring

/-- **C377 (partial).** The layers of a section do not overlap, leave room for the insulation between them, and are within the section
when they and the insulation between them are no thicker than it. -/
theorem layers_inside_partial (c h w t : K) (hw : 0 ≤ w) (ht : 0 ≤ t) (n : Nat) (hfit : n * w + (n - 1) * t ≤ h) (k : Nat) (hk : k < n) :
    c - h / 2 ≤ layerCentre c h w t k - w / 2 ∧ layerCentre c h w t k + w / 2 ≤ c + h / 2 ∧
    layerCentre c h w t k + w / 2 + t = layerCentre c h w t (k + 1) - w / 2 := by
  simp only [layerCentre_eq]
  have hkn : (k : K) + 1 ≤ n := by exact_mod_cast hk
  have hk0 : (0 : K) ≤ k := Nat.cast_nonneg k
  refine ⟨?_, ?_, ?_⟩
  · nlinarith
  · have h1 : (k + 1 : K) * w ≤ n * w := mul_le_mul_of_nonneg_right hkn hw
    have h2 : (k : K) * t ≤ (n - 1) * t := mul_le_mul_of_nonneg_right (by linarith) ht
    linarith
  · push_cast; ring

/-- **C377, negation.** A section of a toroid beside others is as thick as its layers (src/constructive_models/Coil.cpp:8903), so
that with insulation between them the last one leaves it. -/
theorem layers_outside (c w t : K) (ht : 0 < t) (n : Nat) (hn : 2 ≤ n) :
    c + (n * w) / 2 < layerCentre c (n * w) w t (n - 1) + w / 2 := by
  rw [layerCentre_eq]
  have hcast : ((n - 1 : Nat) : K) = (n : K) - 1 := by rw [Nat.cast_sub (by omega)]; simp
  rw [hcast]
  have h2 : (2 : K) ≤ n := by exact_mod_cast hn
  nlinarith

end Verif.Rings
