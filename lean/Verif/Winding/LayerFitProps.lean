import Verif.Winding.LayerProps

/-! # C70 to C72: layers are wound, fit and are stacked -/

namespace Verif.Winding

open Verif.Round

set_option linter.unusedSimpArgs false

/-! ## Growth of the number of layers -/

theorem growLayers_turns {s : SectionIn} {p : Nat} {r : Room} {n m : Nat} (hs : s.style = some .turns)
    (h : growLayers s p r n = .ok m) : m = n := by
  unfold growLayers at h
  rw [hs] at h
  split at h
  · simpa [Res.bind] using h.symm
  · simpa using h.symm

theorem growLayers_fit {s : SectionIn} {p : Nat} {r : Room} {n m : Nat} (hf : 0 < r.fit) (hn : n ≤ r.fit)
    (h : growLayers s p r n = .ok m) : m ≤ r.fit := by
  unfold growLayers at h
  split at h
  · obtain ⟨t, _, h⟩ := bind_ok h
    simp only [] at h
    split at h
    · split at h
      · simp only [Res.ok.injEq, hf, if_true] at h
        omega
      · simp only [Res.ok.injEq] at h; omega
    · simp only [Res.ok.injEq] at h; omega
  · simp only [Res.ok.injEq] at h; omega

theorem growLayers_rows {s : SectionIn} {c : Nat} {r : Room} {n m : Nat} (hs : s.style = some .parallels)
    (hP : 1 < s.parallels) (hnone : s.numberLayers = none) (hmax : s.parallels ≤ r.maxPer) (hn : 0 < n)
    (hbig : c * s.parallels < 10 ^ 9) (hnle : n ≤ c * s.parallels) (hfit : n ≤ r.fit)
    (hneed : c ≤ r.fit * (r.maxPer / s.parallels))
    (h : growLayers s (c * s.parallels) r n = .ok m) : cdiv c m * s.parallels ≤ r.maxPer := by
  have hrows : 0 < r.maxPer / s.parallels := Nat.div_pos hmax (by omega)
  have hper : ⌈((c * s.parallels : ℕ) : ℚ) / (s.parallels : ℚ) - 1 / 10 ^ 9⌉.toNat = c := by
    rw [ceil_eps (by omega) (lt_of_le_of_lt (Nat.le_mul_of_pos_left _ (by
      rcases Nat.eq_zero_or_pos c with h0 | h0
      · rw [h0] at hnle; omega
      · exact h0)) hbig), cdiv_mul_self _ (by omega)]
  unfold growLayers at h
  rw [if_pos ⟨by omega, hnone, by omega, hn⟩, hs, Res.bind_eq_ok] at h
  simp only [hper, true_and] at h
  rw [if_pos hrows, ceil_eps hn (by omega)] at h
  have hmul : r.maxPer / s.parallels * s.parallels ≤ r.maxPer := Nat.div_mul_le_self _ _
  split at h
  · simp only [Res.ok.injEq] at h
    rw [if_pos (by omega)] at h
    have hle : ⌈(c : ℚ) / ((r.maxPer / s.parallels : ℕ) : ℚ) - 1 / 10 ^ 9⌉.toNat ≤ r.fit :=
      le_trans (ceil_eps_le hrows) (cdiv_le_of hrows hneed)
    have hrl : r.maxPer / s.parallels < 10 ^ 9 ∨ 10 ^ 9 ≤ r.maxPer / s.parallels := by omega
    rw [min_eq_left (by omega)] at h
    rcases hrl with hrl | hrl
    · rw [ceil_eps hrows hrl] at h
      have : cdiv c m ≤ r.maxPer / s.parallels := cdiv_swap hrows (by omega) (by omega)
      exact le_trans (Nat.mul_le_mul_right _ this) hmul
    · have hm : 0 < m := by omega
      have : cdiv c m ≤ c := cdiv_le hm
      have hcs : c ≤ c * s.parallels := Nat.le_mul_of_pos_right _ (by omega)
      exact le_trans (Nat.mul_le_mul_right _ (by omega)) hmul
  · simp only [Res.ok.injEq] at h
    subst h
    omega

/-! ## C70: a section whose wire fits is wound -/

theorem layerStyle_ok {T P n : Nat} (hn : 0 < n) (o : Option Style) : ∃ st, layerStyle T P n o = .ok st := by
  unfold layerStyle
  cases o <;> simp only [] <;> repeat' (first | split | omega | exact ⟨_, rfl⟩)

theorem styleFor_total {env : LayerEnv} {s : SectionIn} {r : Room} {n : Nat} (hn : 0 < n) :
    ∃ st, styleFor env s r n = .ok st := by
  unfold styleFor
  cases hs : s.style with
  | some st => exact ⟨_, rfl⟩
  | none =>
    obtain ⟨st, h⟩ := layerStyle_ok (T := s.turns) (P := s.parallels) hn s.override
    simp only [h, Res.bind_eq_ok]
    exact ⟨_, rfl⟩

theorem growLayers_total {s : SectionIn} {p : Nat} {r : Room} {n : Nat} :
    ∃ m, growLayers s p r n = .ok m := by
  unfold growLayers
  split
  · rename_i hg
    cases hs : s.style with
    | some st =>
      simp only [Res.bind_eq_ok]
      split
      · split <;> exact ⟨_, rfl⟩
      · exact ⟨_, rfl⟩
    | none =>
      obtain ⟨st, h⟩ := layerStyle_ok (T := s.turns) (P := s.parallels) hg.2.2.2 none
      simp only [h, Res.bind_eq_ok]
      split
      · split <;> exact ⟨_, rfl⟩
      · exact ⟨_, rfl⟩
  · exact ⟨_, rfl⟩

theorem baseLayers_total {env : LayerEnv} {s : SectionIn} {p : Nat} {r : Room} (h : 0 < r.maxPer) :
    ∃ n, baseLayers env s p r = .ok n := by
  unfold baseLayers
  cases s.numberLayers with
  | some n => exact ⟨_, rfl⟩
  | none =>
    simp only []
    split
    · rw [if_neg (by omega)]; exact ⟨_, rfl⟩
    · rw [if_neg (by omega)]; exact ⟨_, rfl⟩

theorem blockedTurns_pos {P : Nat} {capacity : Nat → Nat} {n k : Nat} (hn : 0 < n) (hP : 0 < P)
    (h : ∀ k, P ≤ capacity k) : 0 < (blockedTurns P capacity n k).length := by
  rcases Nat.eq_zero_or_pos (blockedTurns P capacity n k).length with h0 | h0
  · have h1 := (blockedTurns_facts P capacity n k).2.2.2 h hP
    rw [List.length_eq_zero_iff.mp h0] at h1
    simp at h1
    omega
  · exact h0

theorem maxPer_pos {env : LayerEnv} {s : SectionIn} {a : ℚ} {r : Room} (hpa : 0 < a)
    (hfit : ¬ onePerLayer env s → a ≤ layerLength s)
    (h1 : onePerLayer env s → r.maxPer = 1) (h2 : ¬ onePerLayer env s → r.maxPer = ⌊layerLength s / a⌋.toNat) :
    0 < r.maxPer := by
  by_cases h : onePerLayer env s
  · rw [h1 h]; omega
  · rw [h2 h]
    have : (1 : ℤ) ≤ ⌊layerLength s / a⌋ := by
      rw [Int.le_floor, Int.cast_one, le_div_iff₀ hpa, one_mul]
      exact hfit h
    omega

/-- C70: a section with turns whose wire has positive sizes and fits along the layer is always wound when the number
of layers is left to the library, as long as connections leave space for a row of parallels in each layer. -/
theorem layers_succeed {env : LayerEnv} {s : SectionIn} {n : Nat} {a b : ℚ} (hT : 0 < s.turns)
    (hsec : Consistent s.turns s.parallels s.props n) (hpos : 0 < n) (hb : n ≤ 2 * 10 ^ 10)
    (hnone : s.numberLayers = none)
    (ha : wireAlong s = some a) (hac : wireAcross s = some b) (hpa : 0 < a) (hpb : 0 < b)
    (hl : 0 ≤ layerLength s) (hd : 0 ≤ sectionDepth s) (hfit : ¬ onePerLayer env s → a ≤ layerLength s)
    (hcap : env.real = true → env.blocking = true → ∀ k, s.parallels ≤ s.capacity k) :
    ∃ ls, windLayers env s = .ok ls := by
  obtain ⟨cs, hlen, hps, hsum, hle⟩ := consistent_counts hT hsec
  have hP : 0 < s.parallels := by
    rcases Nat.eq_zero_or_pos s.parallels with h0 | h0
    · rw [List.length_eq_zero_iff.mp (hlen.trans h0)] at hsum
      simp at hsum
      omega
    · exact h0
  obtain ⟨r, hr, _, hr1, hr2, _, _⟩ := roomFor_spec (env := env) ha hac hpa hpb hl hd
  have hmax := maxPer_pos hpa hfit hr1 hr2
  have hplan : ∃ plan, planLayers env s = .ok plan := by
    unfold planLayers
    rw [if_neg (by rw [hps]; simp [hlen])]
    rw [hps, sumTurns_take hT hlen, Res.bind_eq_ok, hr, Res.bind_eq_ok]
    obtain ⟨n₀, hn₀⟩ := baseLayers_total (env := env) (s := s) (p := cs.sum) hmax
    rw [hn₀, Res.bind_eq_ok]
    split
    · rename_i hbl
      rw [if_neg (by omega)]
      have hbb := hbl
      simp only [blocked, Bool.and_eq_true] at hbb
      obtain ⟨st, hst⟩ := styleFor_total (env := env) (s := s) (r := r)
        (blockedTurns_pos (k := 0) (n := cs.sum) (by omega) hP (hcap hbb.1.1.1.1 hbb.1.1.1.2))
      simp only [hst, Res.bind_eq_ok]
      exact ⟨_, rfl⟩
    · obtain ⟨m, hm⟩ := growLayers_total (s := s) (p := cs.sum) (r := r) (n := n₀)
      have hn0 : 0 < n₀ := (baseLayers_ok hn₀).2.1 (by simp [hnone]) (by omega)
      obtain ⟨st, hst⟩ := styleFor_total (env := env) (s := s) (r := r) ((growLayers_ok hm).2.1 hn0)
      simp only [hm, Res.bind_eq_ok, hst]
      exact ⟨_, rfl⟩
  obtain ⟨plan, hplan⟩ := hplan
  obtain ⟨cs, rows, _, _, _, _, _, h6, h7⟩ := windLayers_rows hplan hT hsec hb
  by_cases hz : ∃ row ∈ rows, ∀ k ∈ row, k = 0
  · exact absurd (h7 hz) (layers_never_empty hT hsec hb hnone)
  · have hnz : ∀ row ∈ rows, ∃ k ∈ row, k ≠ 0 := by
      intro row hr
      by_contra hc
      push Not at hc
      exact hz ⟨row, hr, hc⟩
    obtain ⟨ls, e, _⟩ := h6 hnz
    exact ⟨ls, e⟩

/-- The sample has wire that fits. -/
example : wireAlong sampleSection = some 1 ∧ wireAcross sampleSection = some 1 ∧ (1 : ℚ) ≤ layerLength sampleSection ∧
    0 ≤ sectionDepth sampleSection := by decide +kernel

/-! ## C71: layers hold no more than fits -/

theorem mem_rows {ls : List Layer} {rows : List (List Nat)} (h' : (condLayers ls).map (·.physical) = rows.map List.sum)
    {l : Layer} (hl : l ∈ condLayers ls) : ∃ (i : Nat) (row : List Nat), rows[i]? = some row ∧ l.physical = row.sum ∧
      (condLayers ls)[i]? = some l := by
  obtain ⟨i, hi, rfl⟩ := List.mem_iff_getElem.mp hl
  have hlen : (condLayers ls).length = rows.length := by
    have := congrArg List.length h'; simpa using this
  have hri : i < rows.length := by omega
  refine ⟨i, rows[i], List.getElem?_eq_getElem hri, ?_, List.getElem?_eq_getElem hi⟩
  have := congrArg (·[i]?) h'
  simp only [List.getElem?_map, List.getElem?_eq_getElem hi, List.getElem?_eq_getElem hri,
    Option.map_some, Option.some.injEq] at this
  exact this

theorem floor_mul_le {x d : ℚ} (hd : 0 < d) (hx : 0 ≤ x) {k : Nat} (h : k ≤ ⌊x / d⌋.toNat) : (k : ℚ) * d ≤ x := by
  have h0 : 0 ≤ ⌊x / d⌋ := Int.floor_nonneg.mpr (div_nonneg hx hd.le)
  have h1 : ((k : ℤ) : ℚ) ≤ x / d := by
    rw [← Int.le_floor]; omega
  rw [le_div_iff₀ hd] at h1
  exact_mod_cast h1

theorem floorNat {x d : ℚ} (hd : 0 < d) (hx : 0 ≤ x) : ((⌊x / d⌋.toNat : ℕ) : ℤ) = ⌊x / d⌋ :=
  Int.toNat_of_nonneg (Int.floor_nonneg.mpr (div_nonneg hx hd.le))

/-- C71: one parallel after another. In a section set to place one parallel after another, without connection
blocking, the wire of the turns of each layer fits along it, when the section has space for them or overflow across
layers is allowed. -/
theorem layers_fit_turns {env : LayerEnv} {s : SectionIn} {ls : List Layer} {n : Nat} {a b : ℚ}
    (h : windLayers env s = .ok ls) (hT : 0 < s.turns)
    (hsec : Consistent s.turns s.parallels s.props n) (hb : n ≤ 2 * 10 ^ 10) (hnone : s.numberLayers = none)
    (hreal : env.real = false) (hst : s.style = some .turns) (hone : ¬ onePerLayer env s)
    (ha : wireAlong s = some a) (hac : wireAcross s = some b) (hpa : 0 < a) (hpb : 0 < b)
    (hl : a ≤ layerLength s) (hd : 0 ≤ sectionDepth s)
    (hroom : env.overflow = true ∨ sectionDepth s < b ∨ (n : ℤ) ≤ ⌊sectionDepth s / b⌋ * ⌊layerLength s / a⌋) :
    ∀ l ∈ condLayers ls, (l.physical : ℚ) * a ≤ layerLength s := by
  obtain ⟨plan, hplan⟩ := windLayers_plan h
  obtain ⟨cs, rows, hlen, hps, hsum, hle, hrows, _, e2, e3, e4, _⟩ := windLayers_ok h hplan hT hsec hb
  obtain ⟨h1, ⟨n₀, h2, h3⟩, h4, h5⟩ := planLayers_ok hplan hT hlen hps
  have hbl : blocked env s plan.room = false := by simp [blocked, hreal]
  obtain ⟨h6, _⟩ := h3 hbl
  have hl0 : 0 ≤ layerLength s := by linarith
  obtain ⟨r, hr, hf, hr1, hr2, _, _⟩ := roomFor_spec (env := env) ha hac hpa hpb hl0 hd
  rw [h1, Res.ok.injEq] at hr
  subst hr
  have hmax := maxPer_pos hpa (fun _ => hl) hr1 hr2
  have hstyle : plan.style = .turns := (styleFor_ok h4).2.1 hreal hbl hst
  rw [hbl, if_neg (by simp), hstyle] at hrows
  have hcount : plan.count = cdiv n plan.room.maxPer := by
    rw [growLayers_turns hst h6, ← hsum]
    apply ((baseLayers_ok h2).2.2.2 hnone hmax).2.1
    rcases hroom with ho | ho | ho
    · exact .inr (.inl ho)
    · left
      rw [hf]
      have : ⌊sectionDepth s / b⌋ < 1 := by
        rw [Int.floor_lt, Int.cast_one, div_lt_one hpb]
        exact ho
      omega
    · right; right
      apply cdiv_le_of hmax
      rw [hsum, hf, hr2 hone]
      have := floorNat hpa hl0
      have := floorNat hpb hd
      zify
      rw [floorNat hpa hl0, floorNat hpb hd]
      exact ho
  intro l hlm
  obtain ⟨i, row, hi, hp, _⟩ := mem_rows e3 hlm
  apply floor_mul_le hpa hl0
  rw [hp, ← hr2 hone]
  subst hrows
  rw [runNat_turns_sum _ _ _ _ hi, hsum]
  rcases Nat.eq_zero_or_pos plan.count with hz | hz
  · rw [hz] at hi; simp [runNat] at hi
  · have hsw := cdiv_swap (c := n) hmax (le_of_eq hcount.symm) hz
    rw [cdiv_eq hz] at hsw
    refine le_trans ?_ hsw
    split
    · rw [if_neg (by omega)]
    · omega

/-- C71: parallels wound together, with the same turns of each: the wire of the turns of each layer fits along it
when the section has space for the rows of parallels. -/
theorem layers_fit_parallels {env : LayerEnv} {s : SectionIn} {ls : List Layer} {n c : Nat} {a b : ℚ}
    (h : windLayers env s = .ok ls) (hT : 0 < s.turns)
    (hsec : Consistent s.turns s.parallels s.props n) (hb : n < 10 ^ 9) (hnone : s.numberLayers = none)
    (hP : 1 < s.parallels) (heven : ∀ j < s.parallels, share s.turns j s.props = c)
    (hreal : env.real = false) (hst : s.style = some .parallels) (hone : ¬ onePerLayer env s)
    (ha : wireAlong s = some a) (hac : wireAcross s = some b) (hpa : 0 < a) (hpb : 0 < b)
    (hl : s.parallels * a ≤ layerLength s) (hd : 0 ≤ sectionDepth s)
    (hroom : (c : ℤ) ≤ ⌊sectionDepth s / b⌋ * (⌊layerLength s / a⌋ / s.parallels)) :
    ∀ l ∈ condLayers ls, (l.physical : ℚ) * a ≤ layerLength s := by
  obtain ⟨plan, hplan⟩ := windLayers_plan h
  obtain ⟨cs, rows, hlen, hps, hsum, hle, hrows, hnz, e2, e3, e4, _⟩ := windLayers_ok h hplan hT hsec (by omega)
  obtain ⟨h1, ⟨n₀, h2, h3⟩, h4, h5⟩ := planLayers_ok hplan hT hlen hps
  have hbl : blocked env s plan.room = false := by simp [blocked, hreal]
  obtain ⟨h6, _⟩ := h3 hbl
  have hPq : (1 : ℚ) ≤ s.parallels := by exact_mod_cast (by omega : 1 ≤ s.parallels)
  have hal : a ≤ layerLength s := le_trans (by nlinarith) hl
  have hl0 : 0 ≤ layerLength s := by linarith
  obtain ⟨r, hr, hf, hr1, hr2, _, _⟩ := roomFor_spec (env := env) ha hac hpa hpb hl0 hd
  rw [h1, Res.ok.injEq] at hr
  subst hr
  have hmaxP : s.parallels ≤ plan.room.maxPer := by
    rw [hr2 hone]
    have : (s.parallels : ℤ) ≤ ⌊layerLength s / a⌋ := by
      rw [Int.le_floor, le_div_iff₀ hpa]
      exact_mod_cast hl
    omega
  have hstyle : plan.style = .parallels := (styleFor_ok h4).2.2 hst hmaxP hbl
  rw [hbl, if_neg (by simp), hstyle] at hrows
  have hcs : cs = List.replicate s.parallels c := by
    rw [List.eq_replicate_iff]
    refine ⟨hlen, fun k hk => ?_⟩
    obtain ⟨j, hj, rfl⟩ := List.mem_iff_getElem.mp hk
    have := heven j (by omega)
    rw [hps, share_props hT, List.getD, List.getElem?_eq_getElem hj, Option.getD_some] at this
    exact_mod_cast this
  have hn : n = c * s.parallels := by
    rw [← hsum, hcs]; simp [Nat.mul_comm]
  have hsum' : cs.sum = c * s.parallels := by rw [hsum, hn]
  intro l hlm
  obtain ⟨i, row, hi, hp, _⟩ := mem_rows e3 hlm
  apply floor_mul_le hpa hl0
  rw [hp, ← hr2 hone]
  subst hrows
  rcases Nat.eq_zero_or_pos plan.count with hz | hz
  · rw [hz] at hi; simp [runNat] at hi
  rw [runNat_parallels _ _ _ _ hi, hcs, List.map_replicate, List.sum_replicate, smul_eq_mul, Nat.mul_comm]
  have hneed : c ≤ plan.room.fit * (plan.room.maxPer / s.parallels) := by
    rw [hf, hr2 hone]
    zify
    rw [floorNat hpa hl0, floorNat hpb hd]
    exact hroom
  rw [hsum'] at h6 h2
  have hn0 : 0 < n₀ := by
    rcases Nat.eq_zero_or_pos n₀ with h0 | h0
    · have : plan.count = 0 := by
        unfold growLayers at h6
        rw [if_neg (by omega)] at h6
        simp only [Res.ok.injEq] at h6
        omega
      omega
    · exact h0
  have hn0le : n₀ ≤ plan.room.fit := by
    refine le_trans ((baseLayers_ok h2).2.2.2 hnone (by omega)).1 ?_
    apply cdiv_le_of (by omega)
    calc c * s.parallels ≤ plan.room.fit * (plan.room.maxPer / s.parallels) * s.parallels :=
          Nat.mul_le_mul_right _ hneed
      _ = plan.room.fit * (plan.room.maxPer / s.parallels * s.parallels) := by rw [Nat.mul_assoc]
      _ ≤ _ := Nat.mul_le_mul_left _ (Nat.div_mul_le_self _ _)
  have hg := growLayers_rows hst hP hnone hmaxP hn0 (by omega) (baseLayers_ok h2).1 hn0le hneed h6
  rw [cdiv_eq hz] at hg
  refine le_trans (Nat.mul_le_mul_right _ ?_) hg
  split
  · rw [if_neg (by omega)]
  · omega

/-- C71: wires that take a whole layer get one turn per layer, one parallel after another. -/
theorem layers_one_turn {env : LayerEnv} {s : SectionIn} {ls : List Layer} {n : Nat} {a b : ℚ}
    (h : windLayers env s = .ok ls) (hT : 0 < s.turns)
    (hsec : Consistent s.turns s.parallels s.props n) (hb : n ≤ 2 * 10 ^ 10) (hnone : s.numberLayers = none)
    (hreal : env.real = false) (hst : s.style = some .turns) (hone : onePerLayer env s)
    (ha : wireAlong s = some a) (hac : wireAcross s = some b) (hpa : 0 < a) (hpb : 0 < b)
    (hl : 0 ≤ layerLength s) (hd : 0 ≤ sectionDepth s)
    (hroom : env.overflow = true ∨ sectionDepth s < b ∨ (n : ℤ) ≤ ⌊sectionDepth s / b⌋) :
    ∀ l ∈ condLayers ls, l.physical = 1 := by
  obtain ⟨plan, hplan⟩ := windLayers_plan h
  obtain ⟨cs, rows, hlen, hps, hsum, hle, hrows, hnz, e2, e3, e4, _⟩ := windLayers_ok h hplan hT hsec hb
  obtain ⟨h1, ⟨n₀, h2, h3⟩, h4, h5⟩ := planLayers_ok hplan hT hlen hps
  have hbl : blocked env s plan.room = false := by simp [blocked, hreal]
  obtain ⟨h6, _⟩ := h3 hbl
  obtain ⟨r, hr, hf, hr1, hr2, _, _⟩ := roomFor_spec (env := env) ha hac hpa hpb hl hd
  rw [h1, Res.ok.injEq] at hr
  subst hr
  have hstyle : plan.style = .turns := (styleFor_ok h4).2.1 hreal hbl hst
  rw [hbl, if_neg (by simp), hstyle] at hrows
  have hmax := hr1 hone
  have hcount : plan.count = cdiv n plan.room.maxPer := by
    rw [growLayers_turns hst h6, ← hsum]
    apply ((baseLayers_ok h2).2.2.2 hnone (by omega)).2.1
    rcases hroom with ho | ho | ho
    · exact .inr (.inl ho)
    · left
      rw [hf]
      have : ⌊sectionDepth s / b⌋ < 1 := by
        rw [Int.floor_lt, Int.cast_one, div_lt_one hpb]
        exact ho
      omega
    · right; right
      apply cdiv_le_of (by omega)
      rw [hsum, hf, hmax]
      omega
  rw [hmax, cdiv_one] at hcount
  intro l hlm
  obtain ⟨i, row, hi, hp, _⟩ := mem_rows e3 hlm
  rw [hp]
  subst hrows
  rcases Nat.eq_zero_or_pos plan.count with hz | hz
  · rw [hz] at hi; simp [runNat] at hi
  rw [runNat_turns_sum _ _ _ _ hi, hsum, hcount, Nat.mod_self, Nat.div_self (by omega), if_neg (by omega)]

/-- C71: with connection blocking no layer gets more turns than connections leave space for. -/
theorem layers_fit_blocked {env : LayerEnv} {s : SectionIn} {ls : List Layer} {plan : LayerPlan} {n : Nat}
    (h : windLayers env s = .ok ls) (hplan : planLayers env s = .ok plan) (hbl : blocked env s plan.room = true)
    (hT : 0 < s.turns) (hsec : Consistent s.turns s.parallels s.props n) (hb : n ≤ 2 * 10 ^ 10) :
    ∀ l ∈ condLayers ls, l.physical ≤ s.capacity l.index := by
  obtain ⟨cs, rows, hlen, hps, hsum, hle, hrows, hnz, e2, e3, e4, _⟩ := windLayers_ok h hplan hT hsec hb
  rw [hbl, if_pos rfl] at hrows
  intro l hlm
  obtain ⟨i, row, hi, hp, hli⟩ := mem_rows e3 hlm
  have hidx : l.index = i := by
    have := congrArg (·[i]?) e4
    simp only [List.getElem?_map, hli, Option.map_some] at this
    have h2 := List.getElem?_eq_some_iff.mp this.symm
    obtain ⟨_, h3⟩ := h2
    rw [List.getElem_range] at h3
    exact h3.symm
  have hs := runForced_sums plan.style (blockedTurns s.parallels s.capacity n 0) cs
    (by rw [hsum]; exact (blockedTurns_facts _ _ _ _).1)
  subst hrows
  have hb' : (blockedTurns s.parallels s.capacity n 0)[i]? = some row.sum := by
    rw [← hs, List.getElem?_map, hi]; rfl
  have := (blockedTurns_facts s.parallels s.capacity n 0).2.2.1 i _ hb'
  rw [Nat.zero_add] at this
  rw [hp, hidx]
  exact le_trans this (Nat.div_mul_le_self _ _)

/-- C71: without overflow across layers, the layers of a section in which at least one fits are not thicker than it,
insulation between layers aside. -/
theorem layers_within_section {env : LayerEnv} {s : SectionIn} {ls : List Layer} {plan : LayerPlan} {n : Nat} {a b : ℚ}
    (h : windLayers env s = .ok ls) (hplan : planLayers env s = .ok plan) (hbl : blocked env s plan.room = false)
    (hT : 0 < s.turns) (hsec : Consistent s.turns s.parallels s.props n) (hb : n ≤ 2 * 10 ^ 10)
    (hnone : s.numberLayers = none) (hov : env.overflow = false)
    (ha : wireAlong s = some a) (hac : wireAcross s = some b) (hpa : 0 < a) (hpb : 0 < b)
    (hl : ¬ onePerLayer env s → a ≤ layerLength s) (hl0 : 0 ≤ layerLength s) (hd : b ≤ sectionDepth s) :
    ((condLayers ls).length : ℚ) * b ≤ sectionDepth s := by
  obtain ⟨cs, rows, hlen, hps, hsum, hle, hrows, hnz, e2, e3, e4, _⟩ := windLayers_ok h hplan hT hsec hb
  obtain ⟨h1, ⟨n₀, h2, h3⟩, h4, h5⟩ := planLayers_ok hplan hT hlen hps
  obtain ⟨h6, _⟩ := h3 hbl
  have hd0 : 0 ≤ sectionDepth s := by linarith
  obtain ⟨r, hr, hf, hr1, hr2, _, _⟩ := roomFor_spec (env := env) ha hac hpa hpb hl0 hd0
  rw [h1, Res.ok.injEq] at hr
  subst hr
  have hmax := maxPer_pos hpa hl hr1 hr2
  have hfit : 0 < plan.room.fit := by
    rw [hf]
    have : (1 : ℤ) ≤ ⌊sectionDepth s / b⌋ := by
      rw [Int.le_floor, Int.cast_one, le_div_iff₀ hpb, one_mul]
      exact hd
    omega
  have hc : (condLayers ls).length = plan.count := by
    have := congrArg List.length e4; simpa using this
  apply floor_mul_le hpb hd0
  rw [hc, ← hf]
  exact growLayers_fit hfit (((baseLayers_ok h2).2.2.2 hnone hmax).2.2 hfit hov) h6

/-- C71: two parallels of 12 turns of wire of 1 in a section of 10 by 5: rows of two, two rows per layer. -/
example : ⌊sectionDepth sampleSection / 1⌋ * (⌊layerLength sampleSection / 1⌋ / sampleSection.parallels) = 20 ∧
    (∀ j < 2, share 12 j sampleSection.props = (12 : ℕ)) := by decide +kernel

/-- C71: with overflow across layers allowed, parallels wound together are still limited to the layers that fit: the
five layers the turns need become two, with twelve turns each where five fit. -/
theorem layers_overflow_ignored :
    (windLayers { plainEnv with overflow := true } { sampleSection with dims := (2, 5) }).returns fun ls =>
      (condLayers ls).map (·.physical) = [12, 12] := by decide +kernel

/-- C71: the same section with its parallels one after another gets its five layers. -/
theorem layers_overflow_honoured :
    (windLayers { plainEnv with overflow := true }
        { sampleSection with dims := (2, 5), style := some .turns }).returns fun ls =>
      (condLayers ls).map (·.physical) = [5, 5, 5, 5, 4] := by decide +kernel

/-- C71: with real winding geometry the parallels of a section set to place one after another are wound together,
but the number of layers is not adapted: six turns in a layer for five. -/
theorem layers_real_overfull :
    (windLayers { plainEnv with real := true } { sampleSection with style := some .turns }).returns fun ls =>
      (condLayers ls).map (·.physical) = [6, 6, 4, 4, 4] := by decide +kernel

end Verif.Winding
