import Verif.CoilAdvice.Lemmas

/-! # What the coil adviser tries and gives -/

set_option linter.unusedSectionVars false
set_option linter.unusedSimpArgs false
set_option linter.unusedVariables false

namespace Verif.CoilAdvice

variable {K : Type}

/-! ## Shares of the window -/

/-- The windings that a winding is wound with by its own list, and itself. -/
def Wound (ws : List (Winding K)) (i k : Nat) : Prop :=
  k = i ∨ ∃ w l v, ws[i]? = some w ∧ w.woundWith = some l ∧ ws[k]? = some v ∧ v.name ∈ l

section
variable [Field K] [LinearOrder K] [IsStrictOrderedRing K]

/-- The representative of a winding is the first of those that it is wound with. -/
theorem representative_least (ws : List (Winding K)) (i : Nat) (w : Winding K) (h : ws[i]? = some w) :
    Wound ws i (representative ws w i) ∧ ∀ k, Wound ws i k → representative ws w i ≤ k := by
  unfold representative
  constructor
  · rcases foldLowest_mem ws (w.woundWith.getD []) i with h1 | ⟨k, v, h1, h2, h3⟩
    · exact Or.inl h1
    · rw [h3]
      cases hl : w.woundWith with
      | none => simp [hl] at h2
      | some l => exact Or.inr ⟨w, l, v, h, hl, h1, by simpa [hl] using h2⟩
  · rintro k (rfl | ⟨w', l, v, h1, h2, h3, h4⟩)
    · exact foldLowest_le _ _ _
    · rw [h] at h1
      obtain rfl : w = w' := by simpa using h1
      rw [h2]
      exact foldLowest_le_of ws l i k v h3 h4

/-- **C406.** The equal shares of the windings of a coil add up to the whole window, whatever lists of partners they have. -/
theorem equal_sum (ws : List (Winding K)) (h : ws ≠ []) :
    (equalShares ws).length = ws.length ∧ (equalShares ws).sum = 1 := by
  constructor
  · simp [equalShares, representatives_length]
  · simp only [equalShares]
    rw [sum_shared (representatives ws) (fun _ => 1 / ((representatives ws).dedup.length : K))]
    rw [Finset.sum_const, nsmul_eq_mul, List.card_toFinset]
    have : (representatives ws).dedup ≠ [] := by
      intro h0
      apply h
      have h1 := representatives_length ws
      have h2 : representatives ws = [] := by
        rcases hr : representatives ws with _ | ⟨a, l⟩
        · rfl
        · have : a ∈ (representatives ws).dedup := List.mem_dedup.2 (by simp [hr])
          rw [h0] at this; simp at this
      rw [h2] at h1
      exact List.length_eq_zero_iff.1 h1.symm
    have h3 : (0 : K) < ((representatives ws).dedup.length : K) := by
      exact_mod_cast List.length_pos_iff.2 this
    field_simp

/-- **C406.** The windings that have the same representative share one slice, as large as that of any other group. -/
theorem equal_group_partial (ws : List (Winding K)) (r : Nat) (h : r ∈ representatives ws) :
    ((((representatives ws).zip (equalShares ws)).filter fun x => x.1 = r).map Prod.snd).sum =
      1 / ((representatives ws).dedup.length : K) := by
  have := sum_members (representatives ws) (fun _ => 1 / ((representatives ws).dedup.length : K)) r h
  rw [← this]
  simp only [equalShares]
  congr 1
  generalize (fun x => 1 / ((representatives ws).dedup.length : K) / ((representatives ws).count x : K)) = f
  generalize representatives ws = l
  induction l with
  | nil => rfl
  | cons a l ih =>
    by_cases ha : a = r
    · simp [List.filter_cons, ha, ih]
    · simp [List.filter_cons, ha, ih]

/-- **C406.** Windings whose lists name the same windings, themselves included, have the same representative; windings whose
lists have nothing in common do not. -/
theorem same_group_partial (ws : List (Winding K)) (i j : Nat) (v w : Winding K) (hi : ws[i]? = some v) (hj : ws[j]? = some w) :
    ((∀ k, Wound ws i k ↔ Wound ws j k) → (representatives ws)[i]? = (representatives ws)[j]?) ∧
      ((∀ k, ¬ (Wound ws i k ∧ Wound ws j k)) → (representatives ws)[i]? ≠ (representatives ws)[j]?) := by
  rw [representatives_get ws i v hi, representatives_get ws j w hj]
  have a := representative_least ws i v hi
  have b := representative_least ws j w hj
  refine ⟨fun h => ?_, fun h he => ?_⟩
  · exact congrArg some (le_antisymm (a.2 _ ((h _).2 b.1)) (b.2 _ ((h _).1 a.1)))
  · have he : representative ws v i = representative ws w j := by simpa using he
    exact h _ ⟨a.1, he ▸ b.1⟩

end

/-- Three windings of which the second is wound with the first and the third. -/
def chain : List (Winding ℚ) :=
  [⟨"a", some ["b"], none, 1, 1, 1, 1⟩, ⟨"b", some ["a", "c"], none, 1, 1, 1, 1⟩, ⟨"c", some ["b"], none, 1, 1, 1, 1⟩]

/-- **C406.** A chain of windings wound together does not share one slice: the third gets as much as the other two. -/
theorem chain_split : equalShares chain = [1 / 4, 1 / 4, 1 / 2] := by decide +kernel

/-- Two halves of a secondary beside a primary. -/
def centreTapped : List (Winding ℚ) :=
  [⟨"primary", none, none, 1, 2, 10, 1⟩, ⟨"one", some ["two"], none, 2, 2, 5, 1⟩, ⟨"two", some ["one"], none, 2, 2, 5, 1⟩]

example : equalShares centreTapped = [1 / 2, 1 / 4, 1 / 4] := by decide +kernel
example : centreTapped ≠ [] := by decide +kernel
example : 1 ∈ representatives centreTapped := by decide +kernel

section
variable [Field K] [LinearOrder K] [IsStrictOrderedRing K]

/-- What a winding needs: its turns in parallel, and its leads, each as large as the wire. -/
def Needs (real u : Bool) (pattern : List Nat) (repetitions : Nat) (w : Winding K) (i : Nat) (a : K) : Prop :=
  ∃ leads : Nat, a = ((w.turns : K) * w.parallels + leads) * w.width * w.height ∧
    (real = false → leads = 0) ∧
    (real = true → u = false → leads = 2 * w.parallels) ∧
    (real = true → u = true → pattern.count i * repetitions = 0 → leads = 2 * w.parallels) ∧
    (real = true → u = true → ∀ n, pattern.count i * repetitions = n + 1 → leads = (2 + n) * w.parallels)

/-- **C407.** The area taken for a winding is that of its turns, with two leads for each parallel and one more for each
section after the first with the order U, when the geometry is real. -/
theorem areas_spec (real u : Bool) (pattern : List Nat) (repetitions : Nat) (ws : List (Winding K)) (i : Nat) (w : Winding K)
    (h : ws[i]? = some w) :
    ∃ a, (areas real u pattern repetitions ws)[i]? = some a ∧ Needs real u pattern repetitions w i a := by
  refine ⟨areaNeeded real u pattern repetitions w i, by simp [areas, List.getElem?_map, List.getElem?_zipIdx, h],
    leadSlots real u w.parallels (sectionsOf pattern repetitions i), ?_, ?_, ?_, ?_, ?_⟩
  · simp only [areaNeeded]; push_cast; ring
  · rintro rfl; simp [leadSlots]
  · rintro rfl rfl; simp [leadSlots]; ring
  · rintro rfl rfl h0; simp [leadSlots, sectionsOf, h0]; ring
  · rintro rfl rfl n hn
    simp only [leadSlots, sectionsOf, hn]
    cases n with
    | zero => simp; ring
    | succ n => simp; ring

/-- The conditions under which shares are computed by the wires. -/
structure Sized (real u : Bool) (pattern : List Nat) (repetitions : Nat) (ws : List (Winding K)) (equal : List K) : Prop where
  wound : ws ≠ []
  given : equal.length = ws.length
  window : ∀ w ∈ ws, w.window = none ∨ w.window = some 0
  size : ∀ w ∈ ws, 0 < w.width ∧ 0 < w.height
  area : 0 < (areas real u pattern repetitions ws).sum

theorem keeps_iff (real u : Bool) (pattern : List Nat) (repetitions : Nat) (ws : List (Winding K)) (equal : List K) :
    keepsShares real u pattern repetitions ws equal = false ↔ Sized real u pattern repetitions ws equal := by
  constructor
  · intro h
    simp only [keepsShares, Bool.or_eq_false_iff, decide_eq_false_iff_not, List.any_eq_false, decide_eq_true_eq, not_or,
      not_not, not_and_or] at h
    obtain ⟨⟨⟨⟨h1, h2⟩, h3⟩, h4⟩, h5⟩ := h
    exact ⟨fun h0 => h1 (by simp [h0]), h2, h3, h4, h5⟩
  · intro h
    simp only [keepsShares, Bool.or_eq_false_iff, decide_eq_false_iff_not, List.any_eq_false, decide_eq_true_eq, not_or,
      not_not, not_and_or]
    exact ⟨⟨⟨⟨fun h0 => h.wound (List.length_eq_zero_iff.1 h0), h.given⟩, h.window⟩, h.size⟩, h.area⟩

/-- **C407.** The shares by wire add up to the whole window whenever the given ones do. -/
theorem wire_sum (real u : Bool) (pattern : List Nat) (repetitions : Nat) (ws : List (Winding K)) (equal : List K)
    (h : equal.sum = 1) : (wireShares real u pattern repetitions ws equal).sum = 1 := by
  unfold wireShares
  by_cases hk : keepsShares real u pattern repetitions ws equal = true
  · rw [if_pos hk]; exact h
  · rw [if_neg hk]
    have hs := (keeps_iff ..).1 (by simpa using hk)
    simp only
    rw [sum_shared (representatives ws)
      (fun r => groupArea (representatives ws) (areas real u pattern repetitions ws) r / (areas real u pattern repetitions ws).sum),
      ← Finset.sum_div, groupArea_sum _ _ (by simp [representatives_length, areas])]
    exact div_self hs.area.ne'

/-- **C407.** Each group gets the part of the window that its area is of all, shared equally by its members; without sizes the
given shares are kept. -/
theorem wire_share (real u : Bool) (pattern : List Nat) (repetitions : Nat) (ws : List (Winding K)) (equal : List K) :
    (¬ Sized real u pattern repetitions ws equal → wireShares real u pattern repetitions ws equal = equal) ∧
    (Sized real u pattern repetitions ws equal → ∀ (i r : Nat), (representatives ws)[i]? = some r →
      (wireShares real u pattern repetitions ws equal)[i]? =
        some ((((((representatives ws).zip (areas real u pattern repetitions ws)).filter fun x => x.1 = r).map Prod.snd).sum /
          (areas real u pattern repetitions ws).sum) / ((representatives ws).count r : K))) := by
  constructor
  · intro h
    have : keepsShares real u pattern repetitions ws equal = true := by
      by_contra hc
      exact h ((keeps_iff ..).1 (by simpa using hc))
    rw [wireShares, if_pos this]
  · intro h i r hr
    rw [wireShares, if_neg (by simp [(keeps_iff ..).2 h])]
    simp [List.getElem?_map, hr, groupArea]

/-- **C407.** Every winding gets something, when it has turns in parallel and its wire a size. -/
theorem wire_positive (real u : Bool) (pattern : List Nat) (repetitions : Nat) (ws : List (Winding K)) (equal : List K)
    (h : Sized real u pattern repetitions ws equal) (ht : ∀ w ∈ ws, 0 < w.turns ∧ 0 < w.parallels) :
    ∀ x ∈ wireShares real u pattern repetitions ws equal, 0 < x := by
  intro x hx
  rw [wireShares, if_neg (by simp [(keeps_iff ..).2 h])] at hx
  obtain ⟨r, hr, rfl⟩ := List.mem_map.1 hx
  have hc : (0 : K) < ((representatives ws).count r : K) := by exact_mod_cast List.count_pos_iff.2 hr
  have hp : ∀ a ∈ areas real u pattern repetitions ws, 0 < a := by
    intro a ha
    obtain ⟨⟨w, i⟩, hw, rfl⟩ := List.mem_map.1 ha
    have hw : w ∈ ws := by
      have := List.mem_zipIdx hw
      rw [this.2.2]; exact List.getElem_mem _
    have h1 := ht w hw
    have h2 := h.size w hw
    have : (0 : K) < ((w.turns * w.parallels + leadSlots real u w.parallels (sectionsOf pattern repetitions i) : Nat) : K) := by
      exact_mod_cast Nat.add_pos_left (Nat.mul_pos h1.1 h1.2) _
    exact mul_pos (mul_pos this h2.1) h2.2
  refine div_pos (div_pos ?_ h.area) hc
  have hlen : (representatives ws).length = (areas real u pattern repetitions ws).length := by
    simp [representatives_length, areas]
  obtain ⟨i, hi, hri⟩ := List.getElem_of_mem hr
  refine List.sum_pos _ ?_ ?_
  · intro a ha
    obtain ⟨y, hy, rfl⟩ := List.mem_map.1 ha
    exact hp _ (List.of_mem_zip (List.mem_filter.1 hy).1).2
  · intro h0
    have : ((representatives ws)[i], (areas real u pattern repetitions ws)[i]'(hlen ▸ hi)) ∈
        ((representatives ws).zip (areas real u pattern repetitions ws)).filter fun x => x.1 = r := by
      refine List.mem_filter.2 ⟨?_, by simp [hri]⟩
      rw [List.mem_iff_getElem]
      exact ⟨i, by simp [hlen ▸ hi, hi], by simp⟩
    rw [List.map_eq_nil_iff.1 h0] at this
    simp at this

end

example : wireShares false false [0, 1, 2] 1 centreTapped (equalShares centreTapped) = [1 / 3, 1 / 3, 1 / 3] := by
  decide +kernel
example : wireShares true true [0, 1, 2] 2 centreTapped (equalShares centreTapped) = [13 / 45, 16 / 45, 16 / 45] := by
  decide +kernel
example : keepsShares false false [0, 1, 2] 1 centreTapped (equalShares centreTapped) = false := by decide +kernel

/-! ## The check before the second attempt -/

section
variable [Field K] [LinearOrder K] [IsStrictOrderedRing K] [FloorRing K]

/-- A number of turns goes into a section as whole layers of whole turns, side by side. -/
def Arranged (count : Nat) (turnExtent layerExtent turnPitch layerPitch : K) : Prop :=
  ∃ perLayer layers : Nat, 0 < perLayer ∧ count ≤ perLayer * layers ∧
    (perLayer : K) * turnPitch ≤ turnExtent ∧ (layers : K) * layerPitch ≤ layerExtent

/-- One section that holds its turns in whole layers passes. -/
theorem section_passes (count : Nat) (te le tp lp : K) (htp : 0 < tp) (hlp : 0 < lp) (h : Arranged count te le tp lp) :
    sectionHolds (count : K) te le tp lp = true := by
  obtain ⟨t, l, h0, h1, h2, h3⟩ := h
  have he : (0 : K) < eps := by unfold eps; positivity
  have ht : (t : ℤ) ≤ ⌊te / tp + eps⌋ := by
    rw [Int.le_floor]
    have : (t : K) ≤ te / tp := (le_div_iff₀ htp).2 h2
    push_cast
    linarith
  have ht1 : (1 : ℤ) ≤ ⌊te / tp + eps⌋ := le_trans (by exact_mod_cast h0) ht
  have htk : (t : K) ≤ ((⌊te / tp + eps⌋ : ℤ) : K) := by exact_mod_cast ht
  have htpos : (0 : K) < (t : K) := by exact_mod_cast h0
  unfold sectionHolds
  rw [if_neg (by omega)]
  simp only [gt_iff_lt, not_lt, decide_eq_true_eq]
  have hn : ⌈(count : K) / ((⌊te / tp + eps⌋ : ℤ) : K) - eps⌉ ≤ (l : ℤ) := by
    rw [Int.ceil_le]
    have h4 : (count : K) ≤ (t : K) * l := by exact_mod_cast h1
    have h5 : (count : K) / ((⌊te / tp + eps⌋ : ℤ) : K) ≤ l := by
      rw [div_le_iff₀ (by linarith)]
      have : (0 : K) ≤ (l : K) := Nat.cast_nonneg l
      nlinarith
    push_cast
    linarith
  have hn' : ((⌈(count : K) / ((⌊te / tp + eps⌋ : ℤ) : K) - eps⌉ : ℤ) : K) ≤ (l : K) := by exact_mod_cast hn
  nlinarith

/-- Fewer turns go where more go. -/
theorem Arranged.fewer {a b : Nat} {te le tp lp : K} (h : a ≤ b) (hb : Arranged b te le tp lp) : Arranged a te le tp lp := by
  obtain ⟨t, l, h0, h1, h2⟩ := hb
  exact ⟨t, l, h0, h.trans h1, h2⟩

/-- The turns of the fullest section are at least their mean, rounded up. -/
theorem fullest (counts : List Nat) (total sections : Nat) (hs : 0 < sections) (hl : counts.length = sections)
    (ht : counts.sum = total) : ∃ c ∈ counts, ⌈((total : Nat) : K) / (sections : K)⌉ ≤ (c : ℤ) := by
  by_contra hc
  push Not at hc
  have hpos : (0 : K) < (sections : K) := by exact_mod_cast hs
  have h1 : ∀ c ∈ counts, c * sections < total := by
    intro c hcm
    have := hc c hcm
    rw [Int.lt_ceil, lt_div_iff₀ hpos] at this
    exact_mod_cast this
  have h2 : ∀ l : List Nat, (∀ c ∈ l, c * sections < total) → l ≠ [] → l.sum * sections < l.length * total := by
    intro l
    induction l with
    | nil => simp
    | cons a l ih =>
      intro h _
      have ha := h a (List.mem_cons_self ..)
      by_cases hl0 : l = []
      · subst hl0; simpa using ha
      · have := ih (fun c hc => h c (List.mem_cons_of_mem _ hc)) hl0
        simp only [List.sum_cons, List.length_cons]
        nlinarith
  have h3 := h2 counts h1 (by intro h0; simp [h0] at hl; omega)
  rw [hl, ht] at h3
  nlinarith

/-- The turns of a winding in sections with a share of the window, as whole layers of whole turns in each of them. -/
def Windable (r : Room K) (w : Winding K) (sections : Nat) (share : K) : Prop :=
  ∃ counts : List Nat, counts.length = sections ∧ counts.sum = w.turns * w.parallels ∧
    ∀ c ∈ counts,
      if r.layersAlongWidth = true then
        Arranged c (if r.sectionsAlongWidth = true then r.height else r.height * share / sections)
          (if r.sectionsAlongWidth = true then r.width * share / sections else r.width) w.height w.width
      else
        Arranged c (if r.sectionsAlongWidth = true then r.width * share / sections else r.width)
          (if r.sectionsAlongWidth = true then r.height else r.height * share / sections) w.width w.height

/-- **C408.** A combination whose windings each go into their sections, in whole layers of whole turns, is not refused before
it is wound. -/
theorem guard_accepts_partial (room : Option (Room K)) (pattern : List Nat) (repetitions : Nat) (ws : List (Winding K))
    (shares : List K)
    (h : ∀ (r : Room K), room = some r → ∀ (i : Nat) (w : Winding K) (s : K), ws[i]? = some w → shares[i]? = some s →
      0 < pattern.count i * repetitions → Windable r w (pattern.count i * repetitions) s) :
    packable room pattern repetitions ws shares = true := by
  unfold packable
  by_cases hw : ws.any (fun w => decide (w.window ≠ none ∧ w.window ≠ some 0)) = true
  · rw [if_pos hw]
  · rw [if_neg hw]
    cases room with
    | none => rfl
    | some r =>
      simp only [List.all_eq_true]
      rintro ⟨⟨w, i⟩, s⟩ hm
      obtain ⟨k, hk⟩ := List.getElem?_of_mem hm
      rw [List.getElem?_zip_eq_some] at hk
      obtain ⟨hk1, hk2⟩ := hk
      rw [List.getElem?_zipIdx] at hk1
      simp only [Option.map_eq_some_iff, Prod.mk.injEq, zero_add] at hk1
      obtain ⟨w', hk1, rfl, rfl⟩ := hk1
      simp only
      unfold windingPackable
      by_cases h0 : ¬ 0 < w'.width ∨ ¬ 0 < w'.height
      · rw [if_pos h0]
      · rw [if_neg h0]
        push Not at h0
        by_cases h1 : sectionsOf pattern repetitions k < 1
        · rw [if_pos h1]
        · rw [if_neg h1]
          have hs : 0 < pattern.count k * repetitions := by unfold sectionsOf at h1; omega
          obtain ⟨counts, hl, ht, ha⟩ := h r rfl k w' s hk1 hk2 hs
          obtain ⟨c, hc, hcc⟩ := fullest (K := K) counts _ _ hs hl ht
          have ha := ha c hc
          unfold windingHolds
          simp only [Room.sectionWidth, Room.sectionHeight, sectionsOf]
          have hz : (0 : ℤ) ≤ ⌈((w'.turns * w'.parallels : Nat) : K) / ((pattern.count k * repetitions : Nat) : K)⌉ :=
            Int.ceil_nonneg (by positivity)
          obtain ⟨n, hn⟩ := Int.eq_ofNat_of_zero_le hz
          have hnc : n ≤ c := by omega
          have hcast : ((⌈((w'.turns * w'.parallels : Nat) : K) / ((pattern.count k * repetitions : Nat) : K)⌉ : ℤ) : K) = (n : K) := by
            rw [hn]; simp
          rw [hcast]
          by_cases hL : r.layersAlongWidth = true
          · rw [if_pos hL] at ha
            rw [if_pos hL]
            exact section_passes n _ _ _ _ h0.2 h0.1 (ha.fewer hnc)
          · rw [if_neg hL] at ha
            rw [if_neg hL]
            exact section_passes n _ _ _ _ h0.1 h0.2 (ha.fewer hnc)

/-- **C408.** A section that passes holds its turns in whole layers of whole turns, up to a billionth: of a turn along the
layer and of a metre across it. -/
theorem section_passes_only (count : Nat) (te le tp lp : K) (htp : 0 < tp) (hlp : 0 < lp) (hb : te < tp * (10 ^ 9 - 1))
    (h : sectionHolds (count : K) te le tp lp = true) :
    Arranged count (te + tp / 10 ^ 9) (le + 1 / 10 ^ 9) tp lp := by
  unfold sectionHolds at h
  by_cases h1 : ⌊te / tp + eps⌋ < 1
  · rw [if_pos h1] at h; simp at h
  · rw [if_neg h1] at h
    simp only [gt_iff_lt, not_lt, decide_eq_true_eq] at h
    have hpos : (0 : ℤ) ≤ ⌊te / tp + eps⌋ := by omega
    obtain ⟨t, ht⟩ := Int.eq_ofNat_of_zero_le hpos
    have ht1 : 0 < t := by omega
    have htk : (0 : K) < (t : K) := by exact_mod_cast ht1
    rw [ht] at h
    simp only [Int.cast_natCast] at h
    have hnn : (0 : ℤ) ≤ ⌈(count : K) / (t : K) - eps⌉ := by
      by_contra hneg
      have hneg : ⌈(count : K) / (t : K) - eps⌉ ≤ -1 := by omega
      rw [Int.ceil_le] at hneg
      have : (0 : K) ≤ (count : K) / (t : K) := by positivity
      unfold eps at hneg
      push_cast at hneg
      norm_num at hneg
      linarith
    obtain ⟨l, hl⟩ := Int.eq_ofNat_of_zero_le hnn
    rw [hl] at h
    simp only [Int.cast_natCast] at h
    have hfl : (t : K) ≤ te / tp + eps := by
      have := Int.floor_le (te / tp + eps)
      rw [ht] at this
      simpa using this
    have hcl : (count : K) / (t : K) - eps ≤ (l : K) := by
      have := Int.le_ceil ((count : K) / (t : K) - eps)
      rw [hl] at this
      simpa using this
    have hll : (l : K) * lp ≤ le + 1 / 10 ^ 9 := by unfold eps at h; exact h
    have hb : (t : K) < 10 ^ 9 := by
      have h6 : te / tp < 10 ^ 9 - 1 := by rw [div_lt_iff₀ htp]; linarith
      have h7 : (eps : K) ≤ 1 := by unfold eps; rw [div_le_one (by positivity)]; norm_num
      linarith
    refine ⟨t, l, ht1, ?_, ?_, hll⟩
    · have h2 : (count : K) ≤ (t : K) * l + (t : K) * eps := by
        have h2 : (count : K) / (t : K) ≤ (l : K) + eps := by linarith
        rw [div_le_iff₀ htk] at h2
        linarith
      have h3 : (t : K) * eps < 1 := by
        unfold eps
        rw [mul_one_div, div_lt_one (by positivity)]
        exact hb
      have h4 : (count : K) < ((t * l + 1 : Nat) : K) := by push_cast; linarith
      have h5 : count < t * l + 1 := by exact_mod_cast h4
      omega
    · unfold eps at hfl
      have : (t : K) * tp ≤ (te / tp + 1 / 10 ^ 9) * tp := mul_le_mul_of_nonneg_right hfl htp.le
      rw [add_mul, div_mul_cancel₀ _ htp.ne'] at this
      linarith
end

/-- Two windings of a turn each, wound together. -/
def pair : List (Winding ℚ) := [⟨"a", some ["b"], none, 1, 1, 1, 1⟩, ⟨"b", some ["a"], none, 1, 1, 1, 1⟩]

/-- A window one wire and a half wide. -/
def narrow : Room ℚ := ⟨3 / 2, 10, true, true⟩

/-- **C408.** A group wound together in one section, where its turns go side by side in one layer, is refused: each of its
windings is checked against half of the width. -/
theorem group_refused : Arranged (1 + 1) narrow.height (narrow.width : ℚ) 1 1 ∧
    wireShares false false [0, 1] 1 pair (equalShares pair) = [1 / 2, 1 / 2] ∧
    packable (some narrow) [0, 1] 1 pair (wireShares false false [0, 1] 1 pair (equalShares pair)) = false := by
  refine ⟨⟨2, 1, ?_⟩, ?_, ?_⟩
  · norm_num [narrow]
  · decide +kernel
  · decide +kernel

/-- A window where the same two fit on their own. -/
example : packable (some ⟨2, 10, true, true⟩) [0, 1] 1 pair [1 / 2, 1 / 2] = true := by decide +kernel
example : Windable (⟨2, 10, true, true⟩ : Room ℚ) ⟨"a", none, none, 1, 1, 10, 1⟩ 1 (1 / 2) := by
  refine ⟨[10], rfl, rfl, fun c hc => ?_⟩
  obtain rfl : c = 10 := by simpa using hc
  simp only [if_true]
  exact ⟨10, 1, by norm_num, by norm_num, by norm_num, by norm_num⟩
example : sectionHolds (10 : ℚ) 5 2 1 1 = true ∧ (5 : ℚ) < 1 * (10 ^ 9 - 1) := ⟨by decide +kernel, by norm_num⟩
example : sectionHolds (11 : ℚ) 5 2 1 1 = false := by decide +kernel

/-! ## The walk through the wires -/

section
variable [LinearOrder K]

/-- The combination that is being tried. -/
def indexes (rs : List (Reel K)) : List Nat := rs.map (·.current)

/-- No wire is read out of its list. -/
def InBounds (rs : List (Reel K)) : Prop := ∀ r ∈ rs, r.current < r.scores.length

theorem moreAt_iff (rs : List (Reel K)) (i : Nat) : moreAt rs i = true ↔ ∃ r, rs[i]? = some r ∧ r.current + 1 < r.scores.length := by
  unfold moreAt
  cases h : rs[i]? with
  | none => simp
  | some r => simp [Reel.more]

theorem scan_some (rs : List (Reel K)) (f low i : Nat) (h : scan rs f low = some i) : moreAt rs i = true := by
  induction f generalizing low with
  | zero => simp [scan] at h
  | succ f ih =>
    unfold scan at h
    by_cases hm : moreAt rs low = true
    · rw [if_pos hm] at h
      obtain rfl : low = i := by simpa using h
      exact hm
    · rw [if_neg hm] at h
      exact ih _ h

theorem scan_none (rs : List (Reel K)) (f low : Nat) (hlow : low < rs.length) (h : scan rs f low = none) :
    ∀ k < f, ¬ moreAt rs ((low + k) % rs.length) = true := by
  induction f generalizing low with
  | zero => intro k hk; omega
  | succ f ih =>
    unfold scan at h
    by_cases hm : moreAt rs low = true
    · rw [if_pos hm] at h; simp at h
    · rw [if_neg hm] at h
      intro k hk
      cases k with
      | zero => rw [Nat.add_zero, Nat.mod_eq_of_lt hlow]; exact hm
      | succ k =>
        have := ih ((low + 1) % rs.length) (Nat.mod_lt _ (by omega)) h k (by omega)
        rw [Nat.mod_add_mod] at this
        rwa [show low + (k + 1) = low + 1 + k by omega]

/-- What the search for the worst winding ends with. -/
theorem worstFrom_spec (rs : List (Reel K)) (w low : Nat) (worst : Option K) :
    (worstFrom rs w low worst = low ∧ ∀ r ∈ rs, r.more → ∀ s, r.scores[r.current]? = some s → ∃ m, worst = some m ∧ m ≤ s) ∨
    ∃ i r s, worstFrom rs w low worst = w + i ∧ rs[i]? = some r ∧ r.more ∧ r.scores[r.current]? = some s ∧
      (∀ m, worst = some m → s < m) ∧
      (∀ (j : Nat) (r' : Reel K) (s' : K), rs[j]? = some r' → r'.more → r'.scores[r'.current]? = some s' →
        s ≤ s' ∧ (j < i → s < s')) := by
  induction rs generalizing w low worst with
  | nil => left; simp [worstFrom]
  | cons r rs ih =>
    unfold worstFrom
    cases hs : r.scores[r.current]? with
    | none =>
      simp only
      rcases ih (w + 1) low worst with ⟨h1, h2⟩ | ⟨i, r1, s, h1, h2, h3, h4, h5, h6⟩
      · left
        refine ⟨h1, fun r' hr' => ?_⟩
        rcases List.mem_cons.1 hr' with rfl | hr'
        · intro _ s h; rw [hs] at h; simp at h
        · exact h2 r' hr'
      · right
        refine ⟨i + 1, r1, s, by omega, by simpa using h2, h3, h4, h5, fun j r' s' hj hm hs' => ?_⟩
        cases j with
        | zero =>
          simp only [List.getElem?_cons_zero, Option.some.injEq] at hj
          subst hj; rw [hs] at hs'; simp at hs'
        | succ j =>
          have := h6 j r' s' (by simpa using hj) hm hs'
          exact ⟨this.1, fun hji => this.2 (by omega)⟩
    | some s0 =>
      simp only
      by_cases hc : r.more ∧ below s0 worst = true
      · rw [if_pos hc]
        right
        have hb : ∀ m, worst = some m → s0 < m := by
          rintro m rfl
          simpa [below] using hc.2
        rcases ih (w + 1) w (some s0) with ⟨h1, h2⟩ | ⟨i, r1, s, h1, h2, h3, h4, h5, h6⟩
        · refine ⟨0, r, s0, by simpa using h1, rfl, hc.1, hs, hb, fun j r' s' hj hm hs' => ?_⟩
          cases j with
          | zero =>
            simp only [List.getElem?_cons_zero, Option.some.injEq] at hj
            subst hj; rw [hs] at hs'
            obtain rfl : s0 = s' := by simpa using hs'
            exact ⟨le_refl _, fun h => absurd h (by omega)⟩
          | succ j =>
            obtain ⟨m, hm1, hm2⟩ := h2 r' (List.mem_of_getElem? (by simpa using hj)) hm s' hs'
            obtain rfl : s0 = m := by simpa using hm1
            exact ⟨hm2, fun h => absurd h (by omega)⟩
        · have h7 := h5 s0 rfl
          refine ⟨i + 1, r1, s, by omega, by simpa using h2, h3, h4, fun m hm => h7.trans (hb m hm),
            fun j r' s' hj hm hs' => ?_⟩
          cases j with
          | zero =>
            simp only [List.getElem?_cons_zero, Option.some.injEq] at hj
            subst hj; rw [hs] at hs'
            obtain rfl : s0 = s' := by simpa using hs'
            exact ⟨h7.le, fun _ => h7⟩
          | succ j =>
            have := h6 j r' s' (by simpa using hj) hm hs'
            exact ⟨this.1, fun hji => this.2 (by omega)⟩
      · rw [if_neg hc]
        rcases ih (w + 1) low worst with ⟨h1, h2⟩ | ⟨i, r1, s, h1, h2, h3, h4, h5, h6⟩
        · left
          refine ⟨h1, fun r' hr' => ?_⟩
          rcases List.mem_cons.1 hr' with rfl | hr'
          · intro hm s h
            rw [hs] at h
            obtain rfl : s0 = s := by simpa using h
            cases worst with
            | none => exact absurd ⟨hm, by simp [below]⟩ hc
            | some m =>
              refine ⟨m, rfl, ?_⟩
              by_contra hlt
              exact hc ⟨hm, by simpa [below] using hlt⟩
          · exact h2 r' hr'
        · right
          refine ⟨i + 1, r1, s, by omega, by simpa using h2, h3, h4, h5, fun j r' s' hj hm hs' => ?_⟩
          cases j with
          | zero =>
            simp only [List.getElem?_cons_zero, Option.some.injEq] at hj
            subst hj; rw [hs] at hs'
            obtain rfl : s0 = s' := by simpa using hs'
            cases worst with
            | none => exact absurd ⟨hm, by simp [below]⟩ hc
            | some m =>
              have h8 : m ≤ s0 := by
                by_contra hlt
                exact hc ⟨hm, by simpa [below] using hlt⟩
              have h9 := (h5 m rfl).trans_le h8
              exact ⟨h9.le, fun _ => h9⟩
          | succ j =>
            have := h6 j r' s' (by simpa using hj) hm hs'
            exact ⟨this.1, fun hji => this.2 (by omega)⟩

/-- **C409.** One step takes the next wire of the winding whose current wire has the worst score, of those that have another
one, the first if several; it stops exactly when all are at their last wire. -/
theorem step_worst (rs : List (Reel K)) (hb : InBounds rs) :
    ((∀ r ∈ rs, ¬ r.current + 1 < r.scores.length) ∧ step rs = none) ∨
    ∃ (i : Nat) (r : Reel K) (s : K), rs[i]? = some r ∧ r.current + 1 < r.scores.length ∧ r.scores[r.current]? = some s ∧
      step rs = some (bump rs i) ∧
      ∀ (j : Nat) (r' : Reel K) (s' : K), rs[j]? = some r' → r'.current + 1 < r'.scores.length →
        r'.scores[r'.current]? = some s' → s ≤ s' ∧ (j < i → s < s') := by
  rcases worstFrom_spec rs 0 0 none with ⟨h1, h2⟩ | ⟨i, r, s, h1, h2, h3, h4, h5, h6⟩
  · left
    have hn : ∀ r ∈ rs, ¬ r.current + 1 < r.scores.length := by
      intro r hr hm
      obtain ⟨m, hm', _⟩ := h2 r hr hm _ (List.getElem?_eq_getElem (hb r hr))
      simp at hm'
    refine ⟨hn, ?_⟩
    unfold step
    cases hsc : scan rs rs.length (worstFrom rs 0 0 none) with
    | none => rfl
    | some i =>
      obtain ⟨r, hr, hm⟩ := (moreAt_iff rs i).1 (scan_some _ _ _ _ hsc)
      exact absurd hm (hn r (List.mem_of_getElem? hr))
  · right
    refine ⟨i, r, s, h2, h3, h4, ?_, h6⟩
    unfold step
    have hlt : 0 < rs.length := by
      have := (List.getElem?_eq_some_iff.1 h2).1
      omega
    have : scan rs rs.length (worstFrom rs 0 0 none) = some i := by
      rw [h1, Nat.zero_add]
      obtain ⟨n, hn⟩ : ∃ n, rs.length = n + 1 := ⟨rs.length - 1, by omega⟩
      rw [hn]
      unfold scan
      rw [if_pos ((moreAt_iff rs i).2 ⟨r, h2, h3⟩)]
    rw [this]; rfl

/-- How many wires are left to go through. -/
def left (rs : List (Reel K)) : Nat := (rs.map fun r => r.scores.length - 1 - r.current).sum

theorem bump_left (rs : List (Reel K)) (i : Nat) (r : Reel K) (h : rs[i]? = some r) (hm : r.current + 1 < r.scores.length) :
    left (bump rs i) + 1 = left rs := by
  induction rs generalizing i with
  | nil => simp at h
  | cons a rs ih =>
    cases i with
    | zero =>
      simp only [List.getElem?_cons_zero, Option.some.injEq] at h
      subst h
      simp [left, bump, List.modify]
      omega
    | succ i =>
      have := ih i (by simpa using h)
      simp only [left, bump, List.modify_succ_cons, List.map_cons, List.sum_cons] at this ⊢
      omega

theorem bump_bounds (rs : List (Reel K)) (i : Nat) (r : Reel K) (hb : InBounds rs) (h : rs[i]? = some r)
    (hm : r.current + 1 < r.scores.length) : InBounds (bump rs i) := by
  intro x hx
  obtain ⟨k, hk⟩ := List.getElem?_of_mem hx
  rw [bump, List.getElem?_modify] at hk
  cases hr : rs[k]? with
  | none => simp [hr] at hk
  | some y =>
    rw [hr] at hk
    simp only [Option.map_eq_map, Option.map_some, Option.some.injEq] at hk
    by_cases hik : i = k
    · subst hik
      rw [h] at hr
      obtain rfl : r = y := by simpa using hr
      rw [if_pos rfl] at hk
      subst hk
      exact hm
    · rw [if_neg hik] at hk
      obtain rfl : y = x := by simpa using hk
      exact hb y (List.mem_of_getElem? hr)

theorem bump_sum (rs : List (Reel K)) (i : Nat) (r : Reel K) (h : rs[i]? = some r) :
    (indexes (bump rs i)).sum = (indexes rs).sum + 1 := by
  induction rs generalizing i with
  | nil => simp at h
  | cons a rs ih =>
    cases i with
    | zero => simp [indexes, bump, List.modify]; omega
    | succ i =>
      have := ih i (by simpa using h)
      simp only [indexes, bump, List.modify_succ_cons, List.map_cons, List.sum_cons] at this ⊢
      omega

theorem bump_scores (rs : List (Reel K)) (i : Nat) : (bump rs i).map (·.scores) = rs.map (·.scores) := by
  induction rs generalizing i with
  | nil => simp [bump]
  | cons a rs ih =>
    cases i with
    | zero => simp [bump, List.modify]
    | succ i => simpa [bump] using ih i

/-- A combination within lists of wires: one index for each list, each of a wire. -/
def Valid (scores : List (List K)) (c : List Nat) : Prop :=
  c.length = scores.length ∧ ∀ (i k : Nat) (s : List K), c[i]? = some k → scores[i]? = some s → k < s.length

theorem valid_of_bounds (rs : List (Reel K)) (hb : InBounds rs) : Valid (rs.map (·.scores)) (indexes rs) := by
  refine ⟨by simp [indexes], fun i k s hi hs => ?_⟩
  simp only [indexes, List.getElem?_map, Option.map_eq_some_iff] at hi hs
  obtain ⟨r, hr, rfl⟩ := hi
  obtain ⟨r', hr', rfl⟩ := hs
  rw [hr] at hr'
  obtain rfl : r = r' := by simpa using hr'
  exact hb r (List.mem_of_getElem? hr)

theorem walk_spec (n : Nat) (rs : List (Reel K)) (hb : InBounds rs) (hn : left rs = n) :
    (walk n rs).length = n + 1 ∧ (∀ c ∈ walk n rs, Valid (rs.map (·.scores)) c) ∧
      (∀ (k : Nat) (c : List Nat), (walk n rs)[k]? = some c → c.sum = (indexes rs).sum + k) := by
  induction n generalizing rs with
  | zero =>
    refine ⟨rfl, ?_, ?_⟩
    · intro c hc
      obtain rfl : c = indexes rs := by simpa [walk, indexes] using hc
      exact valid_of_bounds rs hb
    · intro k c hk
      cases k with
      | zero =>
        have : indexes rs = c := by simpa [walk, indexes] using hk
        rw [← this]; rfl
      | succ k => simp [walk] at hk
  | succ n ih =>
    rcases step_worst rs hb with ⟨h1, h2⟩ | ⟨i, r, s, h1, h2, h3, h4, _⟩
    · exfalso
      have : left rs = 0 := by
        unfold left
        rw [List.sum_eq_zero]
        intro x hx
        obtain ⟨r, hr, rfl⟩ := List.mem_map.1 hx
        have := h1 r hr
        omega
      omega
    · have hl := bump_left rs i r h1 h2
      obtain ⟨g1, g2, g3⟩ := ih (bump rs i) (bump_bounds rs i r hb h1 h2) (by omega)
      unfold walk
      rw [h4]
      simp only
      refine ⟨by simp [g1], ?_, ?_⟩
      · intro c hc
        rcases List.mem_cons.1 hc with rfl | hc
        · exact valid_of_bounds rs hb
        · have := g2 c hc
          rwa [bump_scores] at this
      · intro k c hk
        cases k with
        | zero =>
          have : indexes rs = c := by simpa [indexes] using hk
          rw [← this]; rfl
        | succ k =>
          have := g3 k c (by simpa using hk)
          rw [bump_sum rs i r h1] at this
          omega

theorem last_of_sum (scores : List (List K)) (c : List Nat) (h : Valid scores c)
    (hs : (scores.map fun s => s.length - 1).sum ≤ c.sum) : c = scores.map fun s => s.length - 1 := by
  induction scores generalizing c with
  | nil => exact List.length_eq_zero_iff.1 (by simpa using h.1)
  | cons s ss ih =>
    cases c with
    | nil => have := h.1; simp at this
    | cons k c =>
      have hk : k < s.length := h.2 0 k s rfl rfl
      have hv : Valid ss c := ⟨by have := h.1; simpa using this,
        fun i k' s' hi hs' => h.2 (i + 1) k' s' (by simpa using hi) (by simpa using hs')⟩
      have hle : ∀ (ss : List (List K)) (c : List Nat), Valid ss c → c.sum ≤ (ss.map fun s => s.length - 1).sum := by
        intro ss
        induction ss with
        | nil =>
          intro c hv
          have : c = [] := List.length_eq_zero_iff.1 (by simpa using hv.1)
          subst this; simp
        | cons a l ih =>
          intro c hv
          cases c with
          | nil => have := hv.1; simp at this
          | cons b c =>
            have hb : b < a.length := hv.2 0 b a rfl rfl
            have := ih c ⟨by have := hv.1; simpa using this,
              fun i k' s' hi hs' => hv.2 (i + 1) k' s' (by simpa using hi) (by simpa using hs')⟩
            simp only [List.sum_cons, List.map_cons]
            omega
      have h1 := hle ss c hv
      simp only [List.map_cons, List.sum_cons] at hs ⊢
      rw [ih c hv (by omega), show k = s.length - 1 by omega]

/-- **C409.** Every combination tried has a wire of each winding; they are as many as wires besides the first of each
winding, and one; each takes one wire further than the one before, so none is tried again, and the last has the last wires. -/
theorem walk_ends (scores : List (List K)) (h : ∀ s ∈ scores, s ≠ []) :
    (tried scores).length = ((scores.map fun s => s.length - 1).sum) + 1 ∧
      (∀ c ∈ tried scores, Valid scores c) ∧
      (∀ (k : Nat) (c : List Nat), (tried scores)[k]? = some c → c.sum = k) ∧ (tried scores).Nodup ∧
      (tried scores)[(scores.map fun s => s.length - 1).sum]? = some (scores.map fun s => s.length - 1) := by
  have hsum : (scores.map fun s => s.length - 1).sum = (scores.map List.length).sum - scores.length := by
    have : (scores.map fun s => s.length - 1).sum + scores.length = (scores.map List.length).sum := by
      induction scores with
      | nil => rfl
      | cons a l ih =>
        have := ih (fun s hs => h s (List.mem_cons_of_mem _ hs))
        have ha : 0 < a.length := List.length_pos_iff.2 (h a (List.mem_cons_self ..))
        simp only [List.map_cons, List.sum_cons, List.length_cons]
        omega
    omega
  have hb : InBounds (scores.map fun s => (⟨s, 0⟩ : Reel K)) := by
    intro r hr
    obtain ⟨s, hs, rfl⟩ := List.mem_map.1 hr
    exact List.length_pos_iff.2 (h s hs)
  have hl : left (scores.map fun s => (⟨s, 0⟩ : Reel K)) = (scores.map List.length).sum - scores.length := by
    rw [← hsum]; simp [left, Function.comp_def]
  obtain ⟨g1, g2, g3⟩ := walk_spec _ _ hb hl
  have hz : (indexes (scores.map fun s => (⟨s, 0⟩ : Reel K))).sum = 0 := by
    simp [indexes, Function.comp_def]
  have g3' : ∀ (k : Nat) (c : List Nat), (tried scores)[k]? = some c → c.sum = k := by
    intro k c hk
    have := g3 k c hk
    omega
  have g2' : ∀ c ∈ tried scores, Valid scores c := by
    intro c hc
    have := g2 c hc
    simpa [Function.comp_def] using this
  have g1' : (tried scores).length = ((scores.map fun s => s.length - 1).sum) + 1 := by rw [hsum]; exact g1
  refine ⟨g1', g2', g3', ?_, ?_⟩
  rotate_left
  · have hlt : (scores.map fun s => s.length - 1).sum < (tried scores).length := by omega
    have h1 := g3' _ _ (List.getElem?_eq_getElem hlt)
    have h2 := last_of_sum scores _ (g2' _ (List.getElem_mem hlt)) (by omega)
    rw [List.getElem?_eq_getElem hlt]
    exact congrArg some h2
  · rw [List.nodup_iff_getElem?_ne_getElem?]
    intro i j hij hj heq
    have h1 := g3' j _ (List.getElem?_eq_getElem hj)
    have h2 := g3' i ((tried scores)[j]) (by rw [heq]; exact List.getElem?_eq_getElem hj)
    omega

end

/-- **C409.** Not every combination is tried: of two windings with two wires each, three of the four are. -/
theorem not_all_tried : tried ([[2, 1], [4, 3]] : List (List ℚ)) = [[0, 0], [1, 0], [1, 1]] := by decide +kernel

example : ∀ s ∈ ([[2, 1], [4, 3]] : List (List ℚ)), s ≠ [] := by decide +kernel

/-! ## Wires of windings wound together -/

section
variable {A : Type}

/-- The list after the first windings. -/
def mirroredUpTo (ws : List (Strand A)) (k : Nat) : List (Strand A) := (List.range k).foldl mirrorOne ws

theorem upTo_succ (ws : List (Strand A)) (k : Nat) : mirroredUpTo ws (k + 1) = mirrorOne (mirroredUpTo ws k) k := by
  simp [mirroredUpTo, List.range_succ]

theorem mirrorOne_other (ws : List (Strand A)) (i j : Nat) (h : i ≠ j) : (mirrorOne ws i)[j]? = ws[j]? := by
  unfold mirrorOne
  split
  · rfl
  · split
    · rfl
    · split
      · rfl
      · rw [List.getElem?_modify]; simp [h]

/-- Name and partner of a winding. -/
def card (w : Strand A) : String × Option String := (w.name, w.first)

theorem mirrorOne_card (ws : List (Strand A)) (i : Nat) : (mirrorOne ws i).map card = ws.map card := by
  unfold mirrorOne
  split
  · rfl
  · split
    · rfl
    · split
      · rfl
      · apply List.ext_getElem?
        intro k
        simp only [List.getElem?_map, List.getElem?_modify]
        by_cases hk : i = k
        · subst hk
          cases h : ws[i]? <;> simp [h, card]
        · cases h : ws[k]? <;> simp [h, hk]

theorem upTo_card (ws : List (Strand A)) (k : Nat) : (mirroredUpTo ws k).map card = ws.map card := by
  induction k with
  | zero => rfl
  | succ k ih => rw [upTo_succ, mirrorOne_card, ih]

theorem upTo_later (ws : List (Strand A)) (k i : Nat) (h : k ≤ i) : (mirroredUpTo ws k)[i]? = ws[i]? := by
  induction k with
  | zero => rfl
  | succ k ih => rw [upTo_succ, mirrorOne_other _ _ _ (by omega), ih (by omega)]

theorem upTo_earlier (ws : List (Strand A)) (k i : Nat) (h : i < k) : (mirroredUpTo ws k)[i]? = (mirroredUpTo ws (i + 1))[i]? := by
  induction k with
  | zero => omega
  | succ k ih =>
    by_cases hk : i = k
    · subst hk; rfl
    · rw [upTo_succ, mirrorOne_other _ _ _ (by omega), ih (by omega)]

theorem find_named (ws : List (Strand A)) (p : String) (j : Nat) (v : Strand A) (hj : ws[j]? = some v) (hp : v.name = p)
    (hf : ∀ (k : Nat) (x : Strand A), k < j → ws[k]? = some x → x.name ≠ p) :
    ws.find? (fun x => decide (x.name = p)) = some v := by
  rw [List.find?_eq_some_iff_getElem]
  obtain ⟨hl, hv⟩ := List.getElem?_eq_some_iff.1 hj
  refine ⟨by simp [hp], j, hl, hv, fun k hk => ?_⟩
  have := hf k ws[k] hk (List.getElem?_eq_getElem _)
  simpa using this

/-- **C410.** A winding without partners, or whose first partner is not there, keeps its wire. -/
theorem mirrored_alone (ws : List (Strand A)) (i : Nat) (w : Strand A) (h : ws[i]? = some w)
    (hw : w.first = none ∨ ∃ p, w.first = some p ∧ ∀ x ∈ ws, x.name ≠ p) : (mirror ws)[i]? = some w := by
  have hl : i < ws.length := (List.getElem?_eq_some_iff.1 h).1
  change (mirroredUpTo ws ws.length)[i]? = some w
  rw [upTo_earlier ws _ i hl, upTo_succ]
  have h1 : (mirroredUpTo ws i)[i]? = some w := by rw [upTo_later ws i i (le_refl _), h]
  unfold mirrorOne
  rw [h1]
  rcases hw with hw | ⟨p, hw, hn⟩
  · simp only [hw, h1]
  · have : (mirroredUpTo ws i).find? (fun v => decide (v.name = p)) = none := by
      rw [List.find?_eq_none]
      intro x hx
      have hc : card x ∈ ws.map card := by rw [← upTo_card ws i]; exact List.mem_map_of_mem hx
      obtain ⟨y, hy, hxy⟩ := List.mem_map.1 hc
      have : y.name = x.name := congrArg Prod.fst hxy
      simpa [← this] using hn y hy
    simp only [hw, this, h1]

/-- **C410.** A winding takes the wire that its first partner ends with, if the partner is before it, and the one that the
partner was given, if it is after it. -/
theorem mirrored_wire (ws : List (Strand A)) (i j : Nat) (w v : Strand A) (p : String) (h : ws[i]? = some w)
    (hw : w.first = some p) (hj : ws[j]? = some v) (hp : v.name = p)
    (hf : ∀ (k : Nat) (x : Strand A), k < j → ws[k]? = some x → x.name ≠ p) :
    (j < i → ((mirror ws)[i]?).map (·.wire) = ((mirror ws)[j]?).map (·.wire)) ∧
      (i ≤ j → ((mirror ws)[i]?).map (·.wire) = some v.wire) := by
  have hl : i < ws.length := (List.getElem?_eq_some_iff.1 h).1
  have hjl : j < ws.length := (List.getElem?_eq_some_iff.1 hj).1
  have h1 : (mirroredUpTo ws i)[i]? = some w := by rw [upTo_later ws i i (le_refl _), h]
  have hcard : ∀ (k : Nat), ((mirroredUpTo ws i)[k]?).map card = (ws[k]?).map card := by
    intro k
    have := congrArg (fun l => l[k]?) (upTo_card ws i)
    simpa [List.getElem?_map] using this
  obtain ⟨u, hu⟩ : ∃ u, (mirroredUpTo ws i)[j]? = some u := by
    have := hcard j
    rw [hj] at this
    cases hx : (mirroredUpTo ws i)[j]? with
    | none => rw [hx] at this; simp at this
    | some u => exact ⟨u, rfl⟩
  have hun : u.name = p := by
    have := hcard j
    rw [hj, hu] at this
    have : card u = card v := by simpa using this
    rw [← hp]; exact congrArg Prod.fst this
  have hfind := find_named (mirroredUpTo ws i) p j u hu hun (by
    intro k x hk hx hxp
    have := hcard k
    rw [hx] at this
    cases hy : ws[k]? with
    | none => rw [hy] at this; simp at this
    | some y =>
      rw [hy] at this
      have : card x = card y := by simpa using this
      exact hf k y hk hy ((congrArg Prod.fst this).symm.trans hxp))
  have hmain : ((mirror ws)[i]?).map (·.wire) = some u.wire := by
    change ((mirroredUpTo ws ws.length)[i]?).map (·.wire) = some u.wire
    rw [upTo_earlier ws _ i hl, upTo_succ]
    unfold mirrorOne
    simp only [h1, hw, hfind]
    rw [List.getElem?_modify]
    simp [h1]
  refine ⟨fun hlt => ?_, fun hge => ?_⟩
  · rw [hmain]
    change _ = ((mirroredUpTo ws ws.length)[j]?).map (·.wire)
    rw [upTo_earlier ws _ j hjl, ← upTo_earlier ws i j hlt, hu]
    rfl
  · rw [hmain]
    rw [upTo_later ws i j hge, hj] at hu
    obtain rfl : v = u := by simpa using hu
    rfl

/-- The place of a name: the first winding that has it. -/
def Place (ws : List (Strand A)) (p : String) (j : Nat) : Prop :=
  (∃ v, ws[j]? = some v ∧ v.name = p) ∧ ∀ (k : Nat) (x : Strand A), k < j → ws[k]? = some x → x.name ≠ p

/-- **C410.** The windings of a group all get the same wire, when all but the first of them name the first one first. -/
theorem mirrored_group_partial (ws : List (Strand A)) (r s : Nat) (lead second : Strand A) (hr : ws[r]? = some lead)
    (hs : ws[s]? = some second) (hrs : r < s) (h1 : lead.first = some second.name) (h2 : Place ws second.name s)
    (h3 : Place ws lead.name r) (i : Nat) (w : Strand A) (hi : ws[i]? = some w)
    (hm : i = r ∨ (r < i ∧ w.first = some lead.name)) :
    ((mirror ws)[i]?).map (·.wire) = some second.wire := by
  have hlead : ((mirror ws)[r]?).map (·.wire) = some second.wire :=
    (mirrored_wire ws r s lead second second.name hr h1 hs rfl h2.2).2 (by omega)
  rcases hm with rfl | ⟨hlt, hf⟩
  · exact hlead
  · rw [(mirrored_wire ws i r w lead lead.name hi hf hr rfl h3.2).1 hlt, hlead]

end

/-- Three windings that name each other, each the next one first. -/
def ring : List (Strand Nat) := [⟨"a", some "b", 10⟩, ⟨"b", some "c", 11⟩, ⟨"c", some "a", 12⟩]

/-- **C410.** Three windings that all name each other, in other orders, do not get the same wire. -/
theorem ring_differs : (mirror ring).map (·.wire) = [11, 12, 11] := by decide +kernel

/-- **C410.** Of two windings wound together only the wire of the second counts: as the walk goes through those of the first,
the same combination is wound again. -/
theorem pair_again (x x' y : Nat) :
    (mirror [⟨"a", some "b", x⟩, ⟨"b", some "a", y⟩]).map (·.wire) =
      (mirror [⟨"a", some "b", x'⟩, ⟨"b", some "a", y⟩]).map (·.wire) ∧
    tried ([[2, 1], [2, 1]] : List (List ℚ)) = [[0, 0], [1, 0], [1, 1]] := by
  refine ⟨?_, by decide +kernel⟩
  simp [mirror, mirrorOne, List.range_succ]

example : (mirror ([⟨"p", none, 1⟩, ⟨"a", some "b", 2⟩, ⟨"b", some "a", 3⟩, ⟨"c", some "a", 4⟩] : List (Strand Nat))).map (·.wire)
    = [1, 3, 3, 3] := by decide +kernel

/-! ## What is given -/

section
variable [LinearOrder K]

theorem ranked_perm (l : List (Candidate K)) : (ranked l).Perm l := List.perm_insertionSort _ l

theorem ranked_sorted (l : List (Candidate K)) : (ranked l).Pairwise fun a b => b.score ≤ a.score := by
  have : Std.Total (fun a b : Candidate K => b.score ≤ a.score) := ⟨fun a b => le_total _ _⟩
  have : IsTrans (Candidate K) (fun a b => b.score ≤ a.score) := ⟨fun a b c h1 h2 => le_trans h2 h1⟩
  exact List.pairwise_insertionSort _ l

theorem ranked_get (l : List (Candidate K)) (i j : Nat) (a b : Candidate K) (hij : i ≤ j) (hi : (ranked l)[i]? = some a)
    (hj : (ranked l)[j]? = some b) : b.score ≤ a.score := by
  obtain ⟨hi1, hi2⟩ := List.getElem?_eq_some_iff.1 hi
  obtain ⟨hj1, hj2⟩ := List.getElem?_eq_some_iff.1 hj
  rcases Nat.lt_or_ge i j with h | h
  · have := List.pairwise_iff_getElem.1 (ranked_sorted l) i j hi1 hj1 h
    rw [hi2, hj2] at this
    exact this
  · obtain rfl : i = j := by omega
    rw [hi] at hj
    obtain rfl : a = b := by simpa using hj
    exact le_refl _

/-- What the cut leaves: the first ones, or all but one of them and the first lateral one. -/
theorem cut_cases (m : Nat) (l : List (Candidate K)) :
    (l.length ≤ m ∧ cut m l = some l) ∨
    (m < l.length ∧ cut m l = some (l.take m) ∧ ∀ (i : Nat) (c : Candidate K), l[i]? = some c → c.lateral = true →
      ∃ (j : Nat) (d : Candidate K), j < m ∧ l[j]? = some d ∧ d.lateral = true) ∨
    ∃ (i : Nat) (c : Candidate K), m < l.length ∧ m ≤ i ∧ l[i]? = some c ∧ c.lateral = true ∧
      (∀ (j : Nat) (d : Candidate K), j < i → l[j]? = some d → d.lateral = false) ∧
      (m = 0 → cut m l = none) ∧ (0 < m → cut m l = some (l.take (m - 1) ++ [c])) := by
  unfold cut
  by_cases h : m < l.length
  · right
    simp only [if_pos h]
    cases hf : l.findIdx? (·.lateral) with
    | none =>
      left
      refine ⟨h, rfl, fun i c hi hc => ?_⟩
      rw [List.findIdx?_eq_none_iff] at hf
      have := hf c (List.mem_of_getElem? hi)
      rw [hc] at this; simp at this
    | some i =>
      rw [List.findIdx?_eq_some_iff_getElem] at hf
      obtain ⟨hi, h1, h2⟩ := hf
      by_cases hmi : m ≤ i
      · right
        refine ⟨i, l[i], h, hmi, List.getElem?_eq_getElem hi, h1, fun j d hj hd => ?_, fun h0 => ?_, fun h0 => ?_⟩
        · obtain ⟨hj1, hj2⟩ := List.getElem?_eq_some_iff.1 hd
          have := h2 j hj
          rw [hj2] at this
          simpa using this
        · simp only [if_pos hmi, if_pos h0]
        · simp only [if_pos hmi, if_neg (by omega : ¬ m = 0)]
          rw [List.getElem?_eq_getElem hi, List.dropLast_take h]
          rfl
      · left
        refine ⟨h, by simp only [if_neg hmi], fun _ _ _ _ => ⟨i, l[i], by omega, List.getElem?_eq_getElem hi, h1⟩⟩
  · left
    exact ⟨by omega, by simp only [if_neg h]⟩

/-- **C411.** Asked for at least one, the adviser gives at most as many as asked for, and all those that are valid when they
are no more than that. -/
theorem give_number (m : Nat) (cs : List (Candidate K)) (hm : 0 < m) :
    ∃ l, give m cs = .results l ∧ l.length ≤ m ∧
      ((cs.filter (·.valid)) ≠ [] → (cs.filter (·.valid)).length ≤ m → (l.map Prod.fst).Perm (cs.filter (·.valid))) := by
  unfold give
  by_cases h : cs.filter (·.valid) = []
  · rw [if_pos h]
    exact ⟨_, rfl, by simp [List.length_take], fun h' => absurd h h'⟩
  · rw [if_neg h]
    have hlen := (ranked_perm (cs.filter (·.valid))).length_eq
    rcases cut_cases m (ranked (cs.filter (·.valid))) with ⟨h1, h2⟩ | ⟨h1, h2, h3⟩ | ⟨i, c, h1, h2, h3, h4, h5, h6, h7⟩
    · rw [h2]
      refine ⟨_, rfl, by simpa using h1, fun _ _ => ?_⟩
      simpa [Function.comp_def] using ranked_perm (cs.filter (·.valid))
    · rw [h2]
      exact ⟨_, rfl, by simp [List.length_take], fun _ h => by omega⟩
    · rw [h7 hm]
      refine ⟨_, rfl, ?_, fun _ h => by omega⟩
      simp [List.length_take]
      omega

/-- **C411.** When some coil is valid, only valid ones are given, without marks. -/
theorem give_valid (m : Nat) (cs : List (Candidate K)) (l : List (Candidate K × Bool)) (h : give m cs = .results l)
    (hv : ∃ c ∈ cs, c.valid = true) : ∀ x ∈ l, x.1 ∈ cs ∧ x.1.valid = true ∧ x.2 = false := by
  have hne : cs.filter (·.valid) ≠ [] := by
    obtain ⟨c, hc, hcv⟩ := hv
    intro h0
    have : c ∈ cs.filter (·.valid) := List.mem_filter.2 ⟨hc, hcv⟩
    rw [h0] at this; simp at this
  unfold give at h
  rw [if_neg hne] at h
  have key : ∀ (l' : List (Candidate K)), (∀ c ∈ l', c ∈ ranked (cs.filter (·.valid))) →
      Given.results (l'.map fun c => (c, false)) = Given.results l → ∀ x ∈ l, x.1 ∈ cs ∧ x.1.valid = true ∧ x.2 = false := by
    intro l' hl' he x hx
    obtain rfl : l'.map (fun c => (c, false)) = l := by simpa using he
    obtain ⟨c, hc, rfl⟩ := List.mem_map.1 hx
    have := List.mem_filter.1 ((ranked_perm _).mem_iff.1 (hl' c hc))
    exact ⟨this.1, this.2, rfl⟩
  rcases cut_cases m (ranked (cs.filter (·.valid))) with ⟨h1, h2⟩ | ⟨h1, h2, h3⟩ | ⟨i, c, h1, h2, h3, h4, h5, h6, h7⟩
  · rw [h2] at h
    exact key _ (fun c hc => hc) h
  · rw [h2] at h
    exact key _ (fun c hc => List.mem_of_mem_take hc) h
  · by_cases hm : m = 0
    · rw [h6 hm] at h; simp at h
    · rw [h7 (by omega)] at h
      refine key _ (fun d hd => ?_) h
      rcases List.mem_append.1 hd with hd | hd
      · exact List.mem_of_mem_take hd
      · obtain rfl : d = c := by simpa using hd
        exact List.mem_of_getElem? h3

/-- **C411.** When none is, the best of those that failed are given, marked as invalid. -/
theorem give_invalid (m : Nat) (cs : List (Candidate K)) (hv : ∀ c ∈ cs, c.valid = false) :
    ∃ l, give m cs = .results l ∧ l.length = min m cs.length ∧ (∀ x ∈ l, x.1 ∈ cs ∧ x.2 = true) ∧
      ∀ x ∈ l, ∀ c ∈ cs, (c, true) ∉ l → c.score ≤ x.1.score := by
  have h0 : cs.filter (·.valid) = [] := by
    rw [List.filter_eq_nil_iff]
    intro c hc
    simp [hv c hc]
  have h1 : (cs.filter fun c => !c.valid) = cs := by
    rw [List.filter_eq_self]
    intro c hc
    simp [hv c hc]
  unfold give
  rw [if_pos h0, h1]
  have hlen := (ranked_perm cs).length_eq
  refine ⟨_, rfl, by simp [List.length_take, hlen], ?_, ?_⟩
  · intro x hx
    obtain ⟨c, hc, rfl⟩ := List.mem_map.1 hx
    exact ⟨(ranked_perm cs).mem_iff.1 (List.mem_of_mem_take hc), rfl⟩
  · intro x hx c hc hn
    obtain ⟨d, hd, rfl⟩ := List.mem_map.1 hx
    obtain ⟨i, hi⟩ := List.getElem?_of_mem hd
    obtain ⟨j, hj⟩ := List.getElem?_of_mem ((ranked_perm cs).mem_iff.2 hc)
    rw [List.getElem?_take] at hi
    by_cases him : i < m
    · rw [if_pos him] at hi
      refine ranked_get cs i j d c ?_ hi hj
      by_contra hlt
      apply hn
      refine List.mem_map.2 ⟨c, ?_, rfl⟩
      refine List.mem_of_getElem? (i := j) ?_
      rw [List.getElem?_take, if_pos (by omega), hj]
    · rw [if_neg him] at hi; simp at hi

/-- **C411.** A valid coil that is left out is not better than any given, but for a lateral one given in the place of a coil
that is not. -/
theorem give_best (m : Nat) (cs : List (Candidate K)) (l : List (Candidate K × Bool)) (h : give m cs = .results l) :
    ∀ x ∈ l, ∀ c ∈ cs, c.valid = true → (c, false) ∉ l →
      c.score ≤ x.1.score ∨ (x.1.lateral = true ∧ c.lateral = false) := by
  intro x hx c hc hcv hn
  have hne : cs.filter (·.valid) ≠ [] := by
    intro h0
    have : c ∈ cs.filter (·.valid) := List.mem_filter.2 ⟨hc, hcv⟩
    rw [h0] at this; simp at this
  unfold give at h
  rw [if_neg hne] at h
  obtain ⟨j, hj⟩ := List.getElem?_of_mem ((ranked_perm (cs.filter (·.valid))).mem_iff.2 (List.mem_filter.2 ⟨hc, hcv⟩))
  have key : ∀ (n : Nat) (d : Candidate K), (∀ e ∈ (ranked (cs.filter (·.valid))).take n, (e, false) ∈ l) →
      d ∈ (ranked (cs.filter (·.valid))).take n → c.score ≤ d.score := by
    intro n d hl hd
    obtain ⟨i, hi⟩ := List.getElem?_of_mem hd
    rw [List.getElem?_take] at hi
    by_cases him : i < n
    · rw [if_pos him] at hi
      refine ranked_get _ i j d c ?_ hi hj
      by_contra hlt
      exact hn (hl c (List.mem_of_getElem? (i := j) (by rw [List.getElem?_take, if_pos (by omega), hj])))
    · rw [if_neg him] at hi; simp at hi
  rcases cut_cases m (ranked (cs.filter (·.valid))) with ⟨h1, h2⟩ | ⟨h1, h2, h3⟩ | ⟨i, d, h1, h2, h3, h4, h5, h6, h7⟩
  · rw [h2] at h
    exfalso
    obtain rfl : (ranked (cs.filter (·.valid))).map (fun c => (c, false)) = l := by simpa using h
    exact hn (List.mem_map.2 ⟨c, List.mem_of_getElem? hj, rfl⟩)
  · rw [h2] at h
    obtain rfl : ((ranked (cs.filter (·.valid))).take m).map (fun c => (c, false)) = l := by simpa using h
    obtain ⟨e, he, rfl⟩ := List.mem_map.1 hx
    exact Or.inl (key m e (fun f hf => List.mem_map.2 ⟨f, hf, rfl⟩) he)
  · by_cases hm : m = 0
    · rw [h6 hm] at h; simp at h
    · rw [h7 (by omega)] at h
      obtain rfl : ((ranked (cs.filter (·.valid))).take (m - 1) ++ [d]).map (fun c => (c, false)) = l := by simpa using h
      obtain ⟨e, he, rfl⟩ := List.mem_map.1 hx
      rcases List.mem_append.1 he with he | he
      · exact Or.inl (key (m - 1) e (fun f hf => List.mem_map.2 ⟨f, List.mem_append_left _ hf, rfl⟩) he)
      · obtain rfl : e = d := by simpa using he
        cases hcl : c.lateral with
        | false => exact Or.inr ⟨h4, rfl⟩
        | true =>
          left
          refine ranked_get _ i j e c ?_ h3 hj
          by_contra hlt
          have := h5 j c (by omega) hj
          rw [hcl] at this; simp at this

/-- **C411.** When a valid coil has a winding on a lateral leg, one of those given has. -/
theorem give_lateral (m : Nat) (cs : List (Candidate K)) (hm : 0 < m) (h : ∃ c ∈ cs, c.valid = true ∧ c.lateral = true) :
    ∃ l, give m cs = .results l ∧ ∃ x ∈ l, x.1.lateral = true := by
  obtain ⟨c, hc, hcv, hcl⟩ := h
  have hcm : c ∈ cs.filter (·.valid) := List.mem_filter.2 ⟨hc, hcv⟩
  have hne : cs.filter (·.valid) ≠ [] := by
    intro h0; rw [h0] at hcm; simp at hcm
  obtain ⟨j, hj⟩ := List.getElem?_of_mem ((ranked_perm (cs.filter (·.valid))).mem_iff.2 hcm)
  unfold give
  rw [if_neg hne]
  rcases cut_cases m (ranked (cs.filter (·.valid))) with ⟨h1, h2⟩ | ⟨h1, h2, h3⟩ | ⟨i, d, h1, h2, h3, h4, h5, h6, h7⟩
  · rw [h2]
    exact ⟨_, rfl, (c, false), List.mem_map.2 ⟨c, List.mem_of_getElem? hj, rfl⟩, hcl⟩
  · rw [h2]
    obtain ⟨k, e, hk, hke, hel⟩ := h3 j c hj hcl
    exact ⟨_, rfl, (e, false), List.mem_map.2 ⟨e, List.mem_of_getElem? (i := k)
      (by rw [List.getElem?_take, if_pos hk, hke]), rfl⟩, hel⟩
  · rw [h7 hm]
    exact ⟨_, rfl, (d, false), by simp, h4⟩

end

/-- Two coils, the better one in the main window. -/
def wound : List (Candidate ℚ) := [⟨0, true, true, 1⟩, ⟨1, true, false, 2⟩, ⟨2, false, false, 3⟩]

/-- **C411.** Asked for no coils while one is lateral, the last element of an empty vector is written. -/
theorem none_undefined : give 0 wound = .undefined := by decide +kernel

example : give 1 wound = .results [(⟨0, true, true, 1⟩, false)] := by decide +kernel
example : give 2 wound = .results [(⟨1, true, false, 2⟩, false), (⟨0, true, true, 1⟩, false)] := by decide +kernel
example : give 2 ([⟨2, false, false, 3⟩] : List (Candidate ℚ)) = .results [(⟨2, false, false, 3⟩, true)] := by decide +kernel

/-! ## Wires offered -/

/-- **C412.** The wires offered are those whose type is accepted and which have the preferred standard, or none; if there is
no such wire, all whose type is accepted. -/
theorem offered_iff {S : Type} [DecidableEq S] (preferred : Option S) (db : List (Spool S)) (w : Spool S) :
    w ∈ offered preferred db ↔ w ∈ db ∧ w.typeAccepted = true ∧
      ((preferred = none ∨ w.standard = none ∨ w.standard = preferred) ∨
        ∀ v ∈ db, v.typeAccepted = true → ¬ (preferred = none ∨ v.standard = none ∨ v.standard = preferred)) := by
  have hp : ∀ v, v ∈ pass true preferred db ↔ v ∈ db ∧ v.typeAccepted = true ∧
      (preferred = none ∨ v.standard = none ∨ v.standard = preferred) := by
    intro v
    simp only [pass, List.mem_filter, Bool.and_eq_true, Bool.or_eq_true, decide_eq_true_eq, Bool.true_eq_false, false_or]
    tauto
  have hq : ∀ v, v ∈ pass false preferred db ↔ v ∈ db ∧ v.typeAccepted = true := by
    intro v
    simp [pass, List.mem_filter]
  unfold offered
  cases h : pass true preferred db with
  | nil =>
    simp only
    rw [hq]
    have hn : ∀ v ∈ db, v.typeAccepted = true → ¬ (preferred = none ∨ v.standard = none ∨ v.standard = preferred) := by
      intro v hv ht hc
      have := (hp v).2 ⟨hv, ht, hc⟩
      rw [h] at this; simp at this
    exact ⟨fun ⟨h1, h2⟩ => ⟨h1, h2, Or.inr hn⟩, fun ⟨h1, h2, _⟩ => ⟨h1, h2⟩⟩
  | cons a l =>
    simp only
    rw [← h, hp]
    constructor
    · rintro ⟨h1, h2, h3⟩
      exact ⟨h1, h2, Or.inl h3⟩
    · rintro ⟨h1, h2, h3 | h3⟩
      · exact ⟨h1, h2, h3⟩
      · have := (hp a).1 (by rw [h]; simp)
        exact absurd this.2.2 (h3 a this.1 this.2.1)

/-- **C412.** Wires are offered in the order of the catalogue, each once, and none is only when no type is accepted. -/
theorem offered_order {S : Type} [DecidableEq S] (preferred : Option S) (db : List (Spool S)) :
    (offered preferred db).Sublist db ∧ (offered preferred db = [] ↔ ∀ w ∈ db, w.typeAccepted = false) := by
  constructor
  · unfold offered
    cases h : pass true preferred db with
    | nil => exact List.filter_sublist
    | cons a l => simp only; rw [← h]; exact List.filter_sublist
  · constructor
    · intro h w hw
      by_contra ht
      have ht : w.typeAccepted = true := by simpa using ht
      have hn : w ∉ offered preferred db := by rw [h]; simp
      rw [offered_iff] at hn
      apply hn
      refine ⟨hw, ht, Or.inr fun v hv hvt hc => ?_⟩
      have : v ∈ offered preferred db := (offered_iff preferred db v).2 ⟨hv, hvt, Or.inl hc⟩
      rw [h] at this; simp at this
    · intro h
      rw [List.eq_nil_iff_forall_not_mem]
      intro w hw
      have := (offered_iff preferred db w).1 hw
      rw [h w this.1] at this
      simp at this

/-- **C412.** One wire without a standard is enough for the wires of other standards not to be offered, even if no wire has
the preferred one. -/
theorem unnamed_standard :
    (offered (some "NEMA") [⟨"a", true, some "IEC"⟩, ⟨"b", true, none⟩] : List (Spool String)) = [⟨"b", true, none⟩] ∧
      (offered (some "NEMA") [⟨"a", true, some "IEC"⟩] : List (Spool String)) = [⟨"a", true, some "IEC"⟩] :=
  ⟨by decide +kernel, by decide +kernel⟩

end Verif.CoilAdvice
