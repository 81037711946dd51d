import Verif.WireAdvice.OrderProps

/-! # Planar wires and litz wires that are made up

Theorems of C294, C295 and C296. -/

set_option linter.unusedSectionVars false

namespace Verif.WireAdvice

open Verif.Scoring (Num)

variable {K : Type} [Field K] [LinearOrder K] [IsStrictOrderedRing K]

/-! ## The penalty of thick copper -/

/-- **C294.** The penalty at the weights of copper, and linear between them up to six ounces: at each weight, in ounces of 35 µm. -/
theorem penalty_values : penalty (oz 1 : K) = 0 ∧ penalty (oz 2 : K) = 8 / 100 ∧ penalty (oz 3 : K) = 18 / 100 ∧
    penalty (oz 4 : K) = 30 / 100 ∧ penalty (oz 6 : K) = 1 / 2 ∧ penalty (oz 10 : K) = 1 := by
  unfold penalty oz
  refine ⟨?_, ?_, ?_, ?_, ?_, ?_⟩ <;> norm_num

theorem penalty_pieces (h : K) : (h ≤ 35 / 10 ^ 6 → penalty h = 0) ∧
    (35 / 10 ^ 6 < h → h ≤ 70 / 10 ^ 6 → penalty h = 8 / 100 * ((h - 35 / 10 ^ 6) / (35 / 10 ^ 6))) ∧
    (70 / 10 ^ 6 < h → h ≤ 105 / 10 ^ 6 → penalty h = 8 / 100 + 10 / 100 * ((h - 70 / 10 ^ 6) / (35 / 10 ^ 6))) ∧
    (105 / 10 ^ 6 < h → h ≤ 140 / 10 ^ 6 → penalty h = 18 / 100 + 12 / 100 * ((h - 105 / 10 ^ 6) / (35 / 10 ^ 6))) ∧
    (140 / 10 ^ 6 < h → h ≤ 210 / 10 ^ 6 → penalty h = 30 / 100 + 20 / 100 * ((h - 140 / 10 ^ 6) / (70 / 10 ^ 6))) ∧
    (210 / 10 ^ 6 < h → h ≤ 350 / 10 ^ 6 → penalty h = 1 / 2 + 1 / 2 * ((h - 210 / 10 ^ 6) / (140 / 10 ^ 6)) ^ 2) ∧
    (350 / 10 ^ 6 ≤ h → penalty h = 1) := by
  have o1 : (oz 1 : K) = 35 / 10 ^ 6 := by unfold oz; norm_num
  have o2 : (oz 2 : K) = 70 / 10 ^ 6 := by unfold oz; norm_num
  have o3 : (oz 3 : K) = 105 / 10 ^ 6 := by unfold oz; norm_num
  have o4 : (oz 4 : K) = 140 / 10 ^ 6 := by unfold oz; norm_num
  have o6 : (oz 6 : K) = 210 / 10 ^ 6 := by unfold oz; norm_num
  have o10 : (oz 10 : K) = 350 / 10 ^ 6 := by unfold oz; norm_num
  unfold penalty
  rw [o1, o2, o3, o4, o6, o10]
  have g1 : (35 : K) / 10 ^ 6 < 70 / 10 ^ 6 := by norm_num
  have g2 : (70 : K) / 10 ^ 6 < 105 / 10 ^ 6 := by norm_num
  have g3 : (105 : K) / 10 ^ 6 < 140 / 10 ^ 6 := by norm_num
  have g4 : (140 : K) / 10 ^ 6 < 210 / 10 ^ 6 := by norm_num
  have g5 : (210 : K) / 10 ^ 6 < 350 / 10 ^ 6 := by norm_num
  refine ⟨?_, ?_, ?_, ?_, ?_, ?_, ?_⟩
  · intro a; rw [if_pos a]
  · intro a b
    rw [if_neg (not_le.mpr a), if_pos b]; norm_num
  · intro a b
    rw [if_neg (by linarith), if_neg (by linarith), if_pos b]; norm_num
  · intro a b
    rw [if_neg (by linarith), if_neg (by linarith), if_neg (by linarith), if_pos b]; norm_num
  · intro a b
    rw [if_neg (by linarith), if_neg (by linarith), if_neg (by linarith), if_neg (by linarith), if_pos b]; norm_num
  · intro a b
    rw [if_neg (by linarith), if_neg (by linarith), if_neg (by linarith), if_neg (by linarith), if_neg (by linarith)]
    have : (h - 210 / 10 ^ 6) / (350 / 10 ^ 6 - 210 / 10 ^ 6) ≤ 1 := by
      rw [div_le_one (by norm_num)]; linarith
    rw [min_eq_right this]
    norm_num; ring
  · intro a
    rw [if_neg (by linarith), if_neg (by linarith), if_neg (by linarith), if_neg (by linarith), if_neg (by linarith)]
    have : 1 ≤ (h - 210 / 10 ^ 6) / (350 / 10 ^ 6 - 210 / 10 ^ 6) := by
      rw [one_le_div (by norm_num)]; linarith
    rw [min_eq_left this]
    norm_num

/-- **C294.** Thicker copper never has a smaller penalty. -/
theorem penalty_mono {a b : K} (hab : a ≤ b) : penalty a ≤ penalty b := by
  obtain ⟨a1, a2, a3, a4, a5, a6, a7⟩ := penalty_pieces a
  obtain ⟨b1, b2, b3, b4, b5, b6, b7⟩ := penalty_pieces b
  have lin : ∀ x c d : K, 0 < d → (x - c) / d * d = x - c := fun x c d hd => div_mul_cancel₀ _ hd.ne'
  -- bounds of every piece
  have low : ∀ h : K, (35 / 10 ^ 6 < h → 0 ≤ penalty h) ∧ (70 / 10 ^ 6 < h → 8 / 100 ≤ penalty h) ∧ (105 / 10 ^ 6 < h → 18 / 100 ≤ penalty h) ∧
      (140 / 10 ^ 6 < h → 30 / 100 ≤ penalty h) ∧ (210 / 10 ^ 6 < h → 1 / 2 ≤ penalty h) := by
    intro h
    obtain ⟨p1, p2, p3, p4, p5, p6, p7⟩ := penalty_pieces h
    have l5 : 210 / 10 ^ 6 < h → 1 / 2 ≤ penalty h := by
      intro x
      rcases le_total h (350 / 10 ^ 6) with y | y
      · rw [p6 x y]; nlinarith [sq_nonneg ((h - 210 / 10 ^ 6) / (140 / 10 ^ 6))]
      · rw [p7 y]; norm_num
    have l4 : 140 / 10 ^ 6 < h → 30 / 100 ≤ penalty h := by
      intro x
      rcases le_or_gt h (210 / 10 ^ 6) with y | y
      · rw [p5 x y]
        have : 0 ≤ (h - 140 / 10 ^ 6) / (70 / 10 ^ 6 : K) := div_nonneg (by linarith) (by norm_num)
        linarith
      · have := l5 y; linarith
    have l3 : 105 / 10 ^ 6 < h → 18 / 100 ≤ penalty h := by
      intro x
      rcases le_or_gt h (140 / 10 ^ 6) with y | y
      · rw [p4 x y]
        have : 0 ≤ (h - 105 / 10 ^ 6) / (35 / 10 ^ 6 : K) := div_nonneg (by linarith) (by norm_num)
        linarith
      · have := l4 y; linarith
    have l2 : 70 / 10 ^ 6 < h → 8 / 100 ≤ penalty h := by
      intro x
      rcases le_or_gt h (105 / 10 ^ 6) with y | y
      · rw [p3 x y]
        have : 0 ≤ (h - 70 / 10 ^ 6) / (35 / 10 ^ 6 : K) := div_nonneg (by linarith) (by norm_num)
        linarith
      · have := l3 y; linarith
    refine ⟨?_, l2, l3, l4, l5⟩
    intro x
    rcases le_or_gt h (70 / 10 ^ 6) with y | y
    · rw [p2 x y]
      have : 0 ≤ (h - 35 / 10 ^ 6) / (35 / 10 ^ 6 : K) := div_nonneg (by linarith) (by norm_num)
      linarith
    · have := l2 y; linarith
  obtain ⟨c1, c2, c3, c4, c5⟩ := low b
  have step : ∀ c d : K, 0 < d → (a - c) / d ≤ (b - c) / d := fun c d hd => div_le_div_of_nonneg_right (by linarith) hd.le
  rcases le_or_gt a (35 / 10 ^ 6) with h1 | h1
  · rw [a1 h1]
    rcases le_or_gt b (35 / 10 ^ 6) with y | y
    · rw [b1 y]
    · exact c1 y
  rcases le_or_gt a (70 / 10 ^ 6) with h2 | h2
  · rw [a2 h1 h2]
    rcases le_or_gt b (70 / 10 ^ 6) with y | y
    · rw [b2 (by linarith) y]
      have := step (35 / 10 ^ 6) (35 / 10 ^ 6) (by norm_num); linarith
    · have : (a - 35 / 10 ^ 6) / (35 / 10 ^ 6) ≤ 1 := by rw [div_le_one (by norm_num)]; linarith
      have := c2 y; linarith
  rcases le_or_gt a (105 / 10 ^ 6) with h3 | h3
  · rw [a3 h2 h3]
    rcases le_or_gt b (105 / 10 ^ 6) with y | y
    · rw [b3 (by linarith) y]
      have := step (70 / 10 ^ 6) (35 / 10 ^ 6) (by norm_num); linarith
    · have : (a - 70 / 10 ^ 6) / (35 / 10 ^ 6) ≤ 1 := by rw [div_le_one (by norm_num)]; linarith
      have := c3 y; linarith
  rcases le_or_gt a (140 / 10 ^ 6) with h4 | h4
  · rw [a4 h3 h4]
    rcases le_or_gt b (140 / 10 ^ 6) with y | y
    · rw [b4 (by linarith) y]
      have := step (105 / 10 ^ 6) (35 / 10 ^ 6) (by norm_num); linarith
    · have : (a - 105 / 10 ^ 6) / (35 / 10 ^ 6) ≤ 1 := by rw [div_le_one (by norm_num)]; linarith
      have := c4 y; linarith
  rcases le_or_gt a (210 / 10 ^ 6) with h5 | h5
  · rw [a5 h4 h5]
    rcases le_or_gt b (210 / 10 ^ 6) with y | y
    · rw [b5 (by linarith) y]
      have := step (140 / 10 ^ 6) (70 / 10 ^ 6) (by norm_num); linarith
    · have : (a - 140 / 10 ^ 6) / (70 / 10 ^ 6) ≤ 1 := by rw [div_le_one (by norm_num)]; linarith
      have := c5 y; linarith
  rcases le_or_gt a (350 / 10 ^ 6) with h6 | h6
  · rw [a6 h5 h6]
    have n0 : 0 ≤ (a - 210 / 10 ^ 6) / (140 / 10 ^ 6 : K) := div_nonneg (by linarith) (by norm_num)
    have n1 : (a - 210 / 10 ^ 6) / (140 / 10 ^ 6 : K) ≤ 1 := by rw [div_le_one (by norm_num)]; linarith
    rcases le_or_gt b (350 / 10 ^ 6) with y | y
    · rw [b6 (by linarith) y]
      have h7 := step (210 / 10 ^ 6) (140 / 10 ^ 6) (by norm_num)
      have := pow_le_pow_left₀ n0 h7 2
      linarith
    · rw [b7 y.le]
      have := pow_le_one₀ (n := 2) n0 n1
      linarith
  · rw [a7 h6.le, b7 (by linarith)]

/-- **C294.** The penalty is between zero, without it up to one ounce, and one, from ten ounces on. -/
theorem penalty_bounds (h : K) : 0 ≤ penalty h ∧ penalty h ≤ 1 ∧ (h ≤ 35 / 10 ^ 6 → penalty h = 0) ∧ (350 / 10 ^ 6 ≤ h → penalty h = 1) := by
  obtain ⟨p1, _, _, _, _, _, p7⟩ := penalty_pieces h
  refine ⟨?_, ?_, p1, p7⟩
  · rcases le_total h (35 / 10 ^ 6) with y | y
    · rw [p1 y]
    · rw [← (penalty_pieces (35 / 10 ^ 6 : K)).1 le_rfl]; exact penalty_mono y
  · rcases le_total (350 / 10 ^ 6) h with y | y
    · rw [p7 y]
    · rw [← (penalty_pieces (350 / 10 ^ 6 : K)).2.2.2.2.2.2 le_rfl]; exact penalty_mono y

example : penalty (K := ℚ) (175 / 10 ^ 6) = 2 / 5 := by decide +kernel

/-! ## The candidates with planar wires -/

theorem mem_upTo (a b k : ℕ) : k ∈ upTo a b ↔ a ≤ k ∧ k ≤ b := by
  unfold upTo
  simp only [List.mem_map, List.mem_range]
  constructor
  · rintro ⟨i, hi, rfl⟩; omega
  · rintro ⟨h1, h2⟩; exact ⟨k - a, by omega, by omega⟩

theorem each_mem {f : Wire K → Res (List (Cand K × K))} : ∀ {ws : List (Wire K)} {l : List (Cand K × K)}, each f ws = .ok l →
    ∀ x, x ∈ l ↔ ∃ w ∈ ws, ∃ m, f w = .ok m ∧ x ∈ m
  | [], l, h, x => by
    simp only [each, Res.ok.injEq] at h
    subst h; simp
  | w :: ws, l, h, x => by
    simp only [each] at h
    obtain ⟨a, h1, h⟩ := bind_ok.mp h
    obtain ⟨b, h2, h⟩ := bind_ok.mp h
    simp only [Res.ok.injEq] at h
    subst h
    rw [List.mem_append, each_mem h2]
    simp only [List.mem_cons, exists_eq_or_imp]
    constructor
    · rintro (h3 | h3)
      · exact Or.inl ⟨a, h1, h3⟩
      · exact Or.inr h3
    · rintro (⟨m, h3, h4⟩ | h3)
      · rw [h1] at h3
        simp only [Res.ok.injEq] at h3
        subst h3; exact Or.inl h4
      · exact Or.inr h3

/-- The turns of a wire fill the width of the section: the distances at both borders, one between each two turns, and copper. -/
def FillsWidth (dist : Distances K) (sec : Section K) (turns : ℤ) (width : K) : Prop :=
  turns * width + (turns - 1) * dist.between + 2 * dist.border = sec.first

theorem fills {dist : Distances K} {sec : Section K} {turns : ℤ} (ht : turns ≠ 0) : FillsWidth dist sec turns (copperWidth dist sec turns / turns) := by
  have : (turns : K) ≠ 0 := Int.cast_ne_zero.mpr ht
  unfold FillsWidth copperWidth
  push_cast
  field_simp
  ring

/-- What a planar wire becomes: as high as it was, with the width of a turn. -/
def PlanarUse (w u : Wire K) (h width : K) : Prop :=
  w.height = some h ∧ u.type = w.type ∧ u.height = some h ∧ u.outerHeight = some h ∧ u.width = some width ∧ u.outerWidth = some width

/-- **C295.** The candidates with parallels are, for every planar wire lower than the section, one with each number of parallels from two,
or what the current needs, to the maximum; all turns of the winding side by side fill the width of the section. -/
theorem planar_parallel_mem [FloorRing K] {e : Env K} {density : K} {maxParallels : ℕ} {dist : Distances K} {sec : Section K} {cur : Current K}
    {turns : ℤ} (ht : turns ≠ 0) {w : Wire K} {l : List (Cand K × K)}
    (h : planarParallel e density maxParallels sec cur (copperWidth dist sec turns / turns) w = .ok l) (x : Cand K × K) (hx : x ∈ l) :
    ∃ hh width, PlanarUse w x.1.wire hh width ∧ FillsWidth dist sec turns width ∧ hh < sec.second ∧ x.2 = -penalty hh ∧
      2 ≤ x.1.parallels ∧ x.1.parallels ≤ maxParallels ∧
      (∃ n, needed e density cur (probe w hh width) = .ok n ∧ 0 ≤ n ∧ n ≤ x.1.parallels) ∧
      x.1.wire.name = some (w.name.getD "Planar" ++ " x" ++ toString x.1.parallels.toNat ++ " parallels") := by
  unfold planarParallel at h
  obtain ⟨hh, h1, h⟩ := bind_ok.mp h
  rw [orThrow_ok] at h1
  split_ifs at h with h2
  · obtain ⟨n, hn, h⟩ := bind_ok.mp h
    simp only [Res.ok.injEq] at h
    subst h
    obtain ⟨k, hk, rfl⟩ := List.mem_map.mp hx
    rw [mem_upTo] at hk
    have hn0 : 0 ≤ n := by
      by_contra hneg
      unfold firstParallels at hk
      rw [if_pos (by omega)] at hk
      omega
    have hfp : firstParallels maxParallels n = max 2 n.toNat := by unfold firstParallels; rw [if_neg (by omega)]
    rw [hfp] at hk
    refine ⟨hh, _, ⟨h1, rfl, h1, rfl, rfl, rfl⟩, fills ht, h2, rfl, ?_, ?_, ⟨n, hn, hn0, ?_⟩, ?_⟩
    · have := le_trans (le_max_left _ _) hk.1; simp only; omega
    · simp only; omega
    · have := le_trans (le_max_right _ _) hk.1; simp only; omega
    · simp [parallelName]
  · simp only [Res.ok.injEq] at h
    subst h; simp at hx

/-- **C295.** None of those numbers of parallels is left out. -/
theorem planar_parallel_complete [FloorRing K] {e : Env K} {density : K} {maxParallels : ℕ} {sec : Section K} {cur : Current K}
    {width hh : K} {w : Wire K} {n : ℤ} (hw : w.height = some hh) (hs : hh < sec.second) (hn : needed e density cur (probe w hh width) = .ok n)
    (hn0 : 0 ≤ n) : ∃ l, planarParallel e density maxParallels sec cur width w = .ok l ∧ l.length = maxParallels + 1 - max 2 n.toNat ∧
      ∀ k : ℕ, 2 ≤ k → n ≤ k → k ≤ maxParallels → ∃ x ∈ l, x.1.parallels = k := by
  unfold planarParallel
  rw [hw]
  simp only [orThrow, ok_bind]
  rw [if_pos hs, hn, ok_bind]
  have hfp : firstParallels maxParallels n = max 2 n.toNat := by unfold firstParallels; rw [if_neg (by omega)]
  refine ⟨_, rfl, by simp [upTo, hfp], fun k h1 h2 h3 => ?_⟩
  refine ⟨_, List.mem_map.mpr ⟨k, ?_, rfl⟩, rfl⟩
  rw [mem_upTo, hfp]
  exact ⟨max_le h1 (by omega), h3⟩

/-- **C295.** The candidate without parallels of a planar wire: the turns of a section fill its width, and one wire carries the
current. -/
theorem planar_single_mem [FloorRing K] {e : Env K} {density : K} {dist : Distances K} {sec : Section K} {cur : Current K}
    {turns : ℤ} (ht : turns ≠ 0) {w : Wire K} {l : List (Cand K × K)}
    (h : planarSingle e density sec cur (copperWidth dist sec turns / turns) w = .ok l) (x : Cand K × K) (hx : x ∈ l) :
    l = [x] ∧ ∃ hh width, PlanarUse w x.1.wire hh width ∧ FillsWidth dist sec turns width ∧ hh < sec.second ∧ x.2 = -penalty hh ∧
      x.1.parallels = 1 ∧ x.1.wire.name = w.name ∧ ∃ n, needed e density cur (probe w hh width) = .ok n ∧ n ≤ 1 := by
  unfold planarSingle at h
  obtain ⟨hh, h1, h⟩ := bind_ok.mp h
  rw [orThrow_ok] at h1
  split_ifs at h with h2
  · obtain ⟨n, hn, h⟩ := bind_ok.mp h
    simp only [Res.ok.injEq] at h
    by_cases h3 : n ≤ 1
    · rw [if_pos h3] at h
      subst h
      rw [List.mem_singleton] at hx
      subst hx
      exact ⟨rfl, hh, _, ⟨h1, rfl, h1, rfl, rfl, rfl⟩, fills ht, h2, rfl, rfl, rfl, n, hn, h3⟩
    · rw [if_neg h3] at h
      subst h; simp at hx
  · simp only [Res.ok.injEq] at h
    subst h; simp at hx

theorem planar_single_complete [FloorRing K] {e : Env K} {density : K} {sec : Section K} {cur : Current K}
    {width hh : K} {w : Wire K} {n : ℤ} (hw : w.height = some hh) (hs : hh < sec.second) (hn : needed e density cur (probe w hh width) = .ok n)
    (h1 : n ≤ 1) : ∃ x, planarSingle e density sec cur width w = .ok [x] ∧ x.1.parallels = 1 := by
  unfold planarSingle
  rw [hw]
  simp only [orThrow, ok_bind]
  rw [if_pos hs, hn, ok_bind, if_pos h1]
  exact ⟨_, rfl, rfl⟩

/-- **C295.** The turns of a section: the least number that holds all turns. -/
theorem turnsPerSection_least [FloorRing K] (q : Asked) (hq : q.sections ≠ 0) (t : ℤ) :
    turnsPerSection (K := K) q ≤ t ↔ q.turns ≤ t * q.sections := by
  have hs : (0 : K) < (q.sections : K) := by exact_mod_cast Nat.pos_of_ne_zero hq
  unfold turnsPerSection
  rw [Int.ceil_le, div_le_iff₀ hs]
  exact_mod_cast Iff.rfl

/-- **C295.** Every candidate of the search of planar wires fills the width of the section: with parallels all turns do, without
parallels those of one of the sections. Nothing else about its width is chosen. -/
theorem planar_dataset_mem [FloorRing K] {e : Env K} {density : K} {maxParallels : ℕ} {dist : Distances K} {sec : Section K} {cur : Current K}
    {q : Asked} (ht : 0 < q.turns) (hq : q.sections ≠ 0) {wires : List (Wire K)} {d : List (Cand K × K)}
    (h : planarDataset e density maxParallels dist sec cur q wires = .ok d) (x : Cand K × K) (hx : x ∈ d) :
    ∃ w ∈ wires, ∃ hh width, PlanarUse w x.1.wire hh width ∧ hh < sec.second ∧ 0 ≤ width ∧ x.2 = -penalty hh ∧
      ((2 ≤ x.1.parallels ∧ x.1.parallels ≤ maxParallels ∧ FillsWidth dist sec q.turns width) ∨
       (x.1.parallels = 1 ∧ ∃ t : ℤ, q.turns ≤ t * q.sections ∧ (t - 1) * q.sections < q.turns ∧ FillsWidth dist sec t width)) ∧
      ∃ n, needed e density cur (probe w hh width) = .ok n ∧ n ≤ x.1.parallels := by
  unfold planarDataset at h
  by_cases h0 : copperWidth dist sec q.turns < 0
  · rw [if_pos h0] at h
    simp only [Res.ok.injEq] at h
    subst h; simp at hx
  · rw [if_neg h0] at h
    obtain ⟨a, ha, h⟩ := bind_ok.mp h
    have htK : (0 : K) < (q.turns : K) := by exact_mod_cast ht
    have hA : x ∈ a → ∃ w ∈ wires, ∃ hh width, PlanarUse w x.1.wire hh width ∧ hh < sec.second ∧ 0 ≤ width ∧ x.2 = -penalty hh ∧
        ((2 ≤ x.1.parallels ∧ x.1.parallels ≤ maxParallels ∧ FillsWidth dist sec q.turns width) ∨
         (x.1.parallels = 1 ∧ ∃ t : ℤ, q.turns ≤ t * q.sections ∧ (t - 1) * q.sections < q.turns ∧ FillsWidth dist sec t width)) ∧
        ∃ n, needed e density cur (probe w hh width) = .ok n ∧ n ≤ x.1.parallels := by
      intro hxa
      obtain ⟨w, hw, m, hm, hxm⟩ := (each_mem ha x).mp hxa
      obtain ⟨hh, width, p1, p2, p3, p4, p5, p6, ⟨n, p7, _, p8⟩, _⟩ := planar_parallel_mem ht.ne' hm x hxm
      refine ⟨w, hw, hh, width, p1, p3, ?_, p4, Or.inl ⟨p5, p6, p2⟩, n, p7, p8⟩
      unfold FillsWidth at p2
      unfold copperWidth at h0
      push_cast at h0
      by_contra hneg
      push Not at hneg h0
      nlinarith [mul_neg_of_pos_of_neg htK hneg]
    by_cases h1 : copperWidth dist sec (turnsPerSection (K := K) q) < 0
    · rw [if_pos h1] at h
      simp only [Res.ok.injEq] at h
      subst h; exact hA hx
    · rw [if_neg h1] at h
      obtain ⟨b, hb, h⟩ := bind_ok.mp h
      simp only [Res.ok.injEq] at h
      subst h
      rcases List.mem_append.mp hx with hx | hx
      · exact hA hx
      · have hleast := turnsPerSection_least (K := K) q hq
        have hpos : 0 < turnsPerSection (K := K) q := by
          by_contra hle
          push Not at hle
          have := (hleast 0).mp hle
          omega
        obtain ⟨w, hw, m, hm, hxm⟩ := (each_mem hb x).mp hx
        obtain ⟨_, hh, width, p1, p2, p3, p4, p5, _, n, p6, p7⟩ := planar_single_mem hpos.ne' hm x hxm
        refine ⟨w, hw, hh, width, p1, p3, ?_, p4, Or.inr ⟨p5, _, (hleast _).mp le_rfl, ?_, p2⟩, n, p6, by omega⟩
        · unfold FillsWidth at p2
          unfold copperWidth at h1
          push_cast at h1
          have htK' : (0 : K) < (turnsPerSection (K := K) q : K) := by exact_mod_cast hpos
          by_contra hneg
          push Not at hneg h1
          nlinarith [mul_neg_of_pos_of_neg htK' hneg]
        · by_contra hle
          push Not at hle
          have := (hleast (turnsPerSection (K := K) q - 1)).mpr hle
          omega

/-- **C295.** A winding whose turns side by side leave no room for copper gets nothing, however many sections it is divided in. -/
theorem planar_nothing [FloorRing K] (e : Env K) (density : K) (maxParallels : ℕ) (dist : Distances K) (sec : Section K) (cur : Current K)
    (q : Asked) (wires : List (Wire K)) (h : sec.first < 2 * dist.border + (q.turns - 1) * dist.between) :
    planarDataset e density maxParallels dist sec cur q wires = .ok [] := by
  unfold planarDataset
  rw [if_pos]
  unfold copperWidth
  push_cast
  linarith

/-! ## Litz wires that are made up -/

/-- What the depth of skin and the area are, when litz wires are made up for a current. -/
def LitzFor (pi skin target : K) (x : K × ℤ) : Prop :=
  ∃ k : ℕ, (k = 2 ∨ k = 3 ∨ k = 4) ∧ x.1 * k = skin ∧ 25 / 10 ^ 6 ≤ x.1 ∧ 3 ≤ x.2 ∧ x.2 ≤ 2000 ∧ target ≤ x.2 * (pi * x.1 ^ 2 / 4) ∧
    (3 < x.2 → ((x.2 - 1 : ℤ) : K) * (pi * x.1 ^ 2 / 4) < target)

theorem litzOf_mem [FloorRing K] {pi skin target : K} (hpi : 0 < pi) {k : ℕ} (hk : k = 2 ∨ k = 3 ∨ k = 4) {x : K × ℤ}
    (h : litzOf pi skin target k = .ok (some x)) : LitzFor pi skin target x := by
  have hkK : (k : K) ≠ 0 := by rcases hk with rfl | rfl | rfl <;> norm_num
  unfold litzOf at h
  by_cases h1 : skin / k < 25 / 10 ^ 6
  · rw [if_pos h1] at h; simp at h
  rw [if_neg h1] at h
  obtain ⟨n, h2, h3⟩ := bind_ok.mp h
  simp only [Res.ok.injEq] at h3
  by_cases h4 : 2000 < n
  · rw [if_pos h4] at h3; simp at h3
  rw [if_neg h4] at h3
  simp only [Option.some.injEq] at h3
  subst h3
  push Not at h1 h4
  have hd : 0 < skin / k := lt_of_lt_of_le (by norm_num) h1
  have harea : 0 < pi * (skin / k) * (skin / k) / 4 := by positivity
  unfold strandsFor at h2
  split_ifs at h2 with h5
  simp only [Res.ok.injEq] at h2
  have e1 : pi * (skin / k) ^ 2 / 4 = pi * (skin / k) * (skin / k) / 4 := by ring
  refine ⟨k, hk, div_mul_cancel₀ _ hkK, h1, ?_, h4, ?_, ?_⟩
  · simp only; rw [← h2]; exact le_max_left _ _
  · simp only
    rw [e1, ← div_le_iff₀ harea, ← Int.ceil_le, ← h2]
    exact le_max_right _ _
  · simp only
    intro h6
    rw [e1, ← lt_div_iff₀ harea, ← Int.lt_ceil]
    have : n = ⌈target / (pi * (skin / k) * (skin / k) / 4)⌉ := by
      rcases max_choice 3 ⌈target / (pi * (skin / k) * (skin / k) / 4)⌉ with h7 | h7 <;> omega
    omega

theorem litzLoop_mem [FloorRing K] {pi skin target : K} (hpi : 0 < pi) : ∀ {ks : List ℕ}, (∀ k ∈ ks, k = 2 ∨ k = 3 ∨ k = 4) → ∀ {l : List (K × ℤ)},
    litzLoop pi skin target ks = .ok l → ∀ x ∈ l, LitzFor pi skin target x
  | [], _, l, h, x, hx => by
    simp only [litzLoop, Res.ok.injEq] at h
    subst h; simp at hx
  | k :: ks, hk, l, h, x, hx => by
    simp only [litzLoop] at h
    obtain ⟨a, h1, h⟩ := bind_ok.mp h
    obtain ⟨b, h2, h⟩ := bind_ok.mp h
    simp only [Res.ok.injEq] at h
    subst h
    rcases List.mem_append.mp hx with h3 | h3
    · rw [Option.mem_toList] at h3
      have : a = some x := h3
      exact litzOf_mem hpi (hk k List.mem_cons_self) (this ▸ h1)
    · exact litzLoop_mem hpi (fun j hj => hk j (List.mem_cons_of_mem _ hj)) h2 x h3

/-- **C296.** Litz wires are made up only for a current whose solid wire would be thicker than the depth of skin; their strands are a half, a
third or a fourth of it, at least 25 µm, and as many, between three and two thousand, as carry the current with the density. -/
theorem synthesize_spec [FloorRing K] {pi : K} (hpi : 0 < pi) (root : K → K) {includeLitz : Bool} {cur : Current K} {temperature density : K}
    {l : List (K × ℤ)} (h : synthesize pi root includeLitz cur temperature density = .ok l) {x : K × ℤ} (hx : x ∈ l) :
    includeLitz = true ∧ ∃ f rms, HasData cur f rms ∧ 0 < f ∧ 0 < rms ∧ 0 < density ∧ ∃ rho skin, 0 ≤ rho ∧
      rho = 1724 / 10 ^ 11 * (1 + 393 / 10 ^ 5 * (temperature - 20)) ∧ skin = root (rho / (pi * f * (4 / 10 ^ 7 * pi))) ∧
      skin < root (4 * (rms / density) / pi) ∧ LitzFor pi skin (rms / density) x := by
  unfold synthesize at h
  by_cases h0 : includeLitz = false
  · rw [if_pos h0] at h
    simp only [Res.ok.injEq] at h
    subst h; simp at hx
  · rw [if_neg h0] at h
    refine ⟨by simpa using h0, ?_⟩
    cases hp : cur.processed with
    | none =>
      rw [hp] at h
      simp only [Res.ok.injEq] at h
      subst h; simp at hx
    | some p =>
      obtain ⟨fo, ro⟩ := p
      rw [hp] at h
      cases fo with
      | none =>
        simp only [Res.ok.injEq] at h
        subst h; simp at hx
      | some f => cases ro with
        | none =>
          simp only [Res.ok.injEq] at h
          subst h; simp at hx
        | some rms =>
          simp only at h
          by_cases h1 : f ≤ 0 ∨ rms ≤ 0 ∨ density ≤ 0
          · rw [if_pos h1] at h
            simp only [Res.ok.injEq] at h
            subst h; simp at hx
          · rw [if_neg h1] at h
            by_cases h2 : copper temperature < 0
            · rw [if_pos h2] at h; simp at h
            · rw [if_neg h2] at h
              by_cases h3 : root (4 * (rms / density) / pi) ≤ root (copper temperature / (pi * f * (4 / 10 ^ 7 * pi)))
              · rw [if_pos h3] at h
                simp only [Res.ok.injEq] at h
                subst h; simp at hx
              · rw [if_neg h3] at h
                push Not at h1 h2 h3
                exact ⟨f, rms, ⟨⟨some f, some rms⟩, hp, rfl, rfl⟩, h1.1, h1.2.1, h1.2.2, copper temperature, _, h2, rfl, rfl, h3,
                  litzLoop_mem hpi (by simp) h x hx⟩

theorem litzLoop_complete [FloorRing K] {pi skin target : K} (hpi : 0 < pi) {k : ℕ} (hlow : 25 / 10 ^ 6 ≤ skin / k) {m : ℤ} (hm : m ≤ 2000)
    (hcarry : target ≤ m * (pi * (skin / k) ^ 2 / 4)) : ∀ {ks : List ℕ} {l : List (K × ℤ)}, k ∈ ks → litzLoop pi skin target ks = .ok l →
      ∃ n, (skin / k, n) ∈ l
  | [], _, hk, _ => by simp at hk
  | j :: ks, l, hk, h => by
    simp only [litzLoop] at h
    obtain ⟨a, h1, h⟩ := bind_ok.mp h
    obtain ⟨b, h2, h⟩ := bind_ok.mp h
    simp only [Res.ok.injEq] at h
    subst h
    rcases List.mem_cons.mp hk with rfl | hk
    · unfold litzOf at h1
      rw [if_neg (not_lt.mpr hlow)] at h1
      obtain ⟨n, h3, h4⟩ := bind_ok.mp h1
      have hd : 0 < skin / k := lt_of_lt_of_le (by norm_num) hlow
      have harea : 0 < pi * (skin / k) * (skin / k) / 4 := by positivity
      have e1 : pi * (skin / k) ^ 2 / 4 = pi * (skin / k) * (skin / k) / 4 := by ring
      rw [e1, ← div_le_iff₀ harea, ← Int.ceil_le] at hcarry
      unfold strandsFor at h3
      split_ifs at h3
      simp only [Res.ok.injEq] at h3 h4
      have hn : ¬ 2000 < n := by rw [← h3, not_lt]; exact max_le (by norm_num) (le_trans hcarry hm)
      rw [if_neg hn] at h4
      subst h4
      exact ⟨n, by simp⟩
    · obtain ⟨n, hn⟩ := litzLoop_complete hpi hlow hm hcarry hk h2
      exact ⟨n, List.mem_append_right _ hn⟩

/-- **C296.** A litz wire is made up for each of the three diameters, unless it is below 25 µm or would take more than two thousand
strands. -/
theorem synthesize_complete [FloorRing K] {pi : K} (hpi : 0 < pi) (root : K → K) {cur : Current K} {f rms : K} (hc : HasData cur f rms) (hf : 0 < f)
    (hr : 0 < rms) {temperature density rho : K} (hd : 0 < density) (hrho : rho = 1724 / 10 ^ 11 * (1 + 393 / 10 ^ 5 * (temperature - 20)))
    (hskin : root (rho / (pi * f * (4 / 10 ^ 7 * pi))) < root (4 * (rms / density) / pi)) {l : List (K × ℤ)}
    (h : synthesize pi root true cur temperature density = .ok l) {k : ℕ} (hk : k = 2 ∨ k = 3 ∨ k = 4) {d : K}
    (hd1 : d = root (rho / (pi * f * (4 / 10 ^ 7 * pi))) / k) (hd2 : 25 / 10 ^ 6 ≤ d) (hcarry : rms / density ≤ 2000 * (pi * d ^ 2 / 4)) :
    ∃ n, (d, n) ∈ l := by
  obtain ⟨⟨fo, ro⟩, hp, h1, h2⟩ := hc
  simp only at h1 h2
  subst h1; subst h2
  unfold synthesize at h
  rw [if_neg (by simp), hp] at h
  simp only at h
  have hco : copper temperature = rho := hrho.symm
  rw [if_neg (by push Not; exact ⟨hf, hr, hd⟩), hco] at h
  split_ifs at h with h3 h4
  · exact absurd hskin (not_lt.mpr h4)
  · subst hd1
    exact litzLoop_complete hpi hd2 (m := 2000) le_rfl (by exact_mod_cast hcarry) (by rcases hk with rfl | rfl | rfl <;> simp) h

/-- **C296.** At temperatures where the linear law of copper is negative, the number of strands is undefined behaviour. -/
theorem synthesize_cold [FloorRing K] (pi : K) (root : K → K) {cur : Current K} {f rms : K} (hc : HasData cur f rms) (hf : 0 < f) (hr : 0 < rms)
    {density : K} (hd : 0 < density) {temperature : K} (ht : temperature < 20 - 10 ^ 5 / 393) :
    synthesize pi root true cur temperature density = .ub := by
  obtain ⟨⟨fo, ro⟩, hp, h1, h2⟩ := hc
  simp only at h1 h2
  subst h1; subst h2
  unfold synthesize
  rw [if_neg (by simp), hp]
  simp only
  rw [if_neg (by push Not; exact ⟨hf, hr, hd⟩), if_pos]
  unfold copper
  have : 1 + 393 / 10 ^ 5 * (temperature - 20) < 0 := by
    have h3 : temperature - 20 < -(10 ^ 5 / 393 : K) := by linarith
    have h4 := mul_lt_mul_of_pos_left h3 (by norm_num : (0 : K) < 393 / 10 ^ 5)
    norm_num at h4 ⊢
    linarith
  exact mul_neg_of_pos_of_neg (by norm_num) this

end Verif.WireAdvice
