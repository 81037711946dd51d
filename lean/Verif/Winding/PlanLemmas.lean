import Verif.Winding.LayersLemmas

/-! # Lemmas about the planning of layers -/

namespace Verif.Winding

open Verif.Round

set_option linter.unusedSimpArgs false

theorem cdiv_mul_ge {c m : Nat} (hm : 0 < m) : c ≤ cdiv c m * m := by
  rw [cdiv_eq hm]
  have h1 := Nat.div_add_mod c m
  have h2 := Nat.mod_lt c hm
  rw [Nat.add_mul, Nat.mul_comm (c / m) m]
  split <;> omega

theorem cdiv_le_of {c m k : Nat} (hm : 0 < m) (h : c ≤ k * m) : cdiv c m ≤ k := by
  unfold cdiv
  rw [← Nat.lt_succ_iff, Nat.div_lt_iff_lt_mul hm, Nat.succ_mul]
  omega

theorem cdiv_pos {c m : Nat} (hm : 0 < m) (hc : 0 < c) : 0 < cdiv c m := by
  by_contra h
  have := cdiv_mul_ge (c := c) hm
  have h0 : cdiv c m = 0 := by omega
  rw [h0] at this
  omega

theorem cdiv_anti {c m k : Nat} (hm : 0 < m) (h : m ≤ k) : cdiv c k ≤ cdiv c m :=
  cdiv_le_of (by omega) (le_trans (cdiv_mul_ge hm) (Nat.mul_le_mul_left _ h))

theorem cdiv_mul_self (c : Nat) {m : Nat} (hm : 0 < m) : cdiv (c * m) m = c := by
  apply le_antisymm (cdiv_le_of hm (le_refl _))
  have := cdiv_mul_ge (c := c * m) hm
  exact Nat.le_of_mul_le_mul_right this hm

/-- `c` over at least `cdiv c k` slots is at most `k` each. -/
theorem cdiv_swap {c k n : Nat} (hk : 0 < k) (hn : cdiv c k ≤ n) (h0 : 0 < n) : cdiv c n ≤ k := by
  apply cdiv_le_of h0
  calc c ≤ cdiv c k * k := cdiv_mul_ge hk
    _ ≤ n * k := Nat.mul_le_mul_right _ hn
    _ = k * n := Nat.mul_comm _ _

theorem ceil_eps_le {a b : Nat} (hb : 0 < b) : ⌈(a : ℚ) / (b : ℚ) - 1 / 10 ^ 9⌉.toNat ≤ cdiv a b := by
  have h := ceil_div_nat (c := a) hb
  have h1 : ⌈(a : ℚ) / (b : ℚ) - 1 / 10 ^ 9⌉ ≤ ⌈(a : ℚ) / (b : ℚ)⌉ := by
    apply Int.ceil_le_ceil
    norm_num
  rw [h] at h1
  omega

theorem ceil_eps {a b : Nat} (hb : 0 < b) (hlt : b < 10 ^ 9) :
    ⌈(a : ℚ) / (b : ℚ) - 1 / 10 ^ 9⌉.toNat = cdiv a b := by
  apply le_antisymm (ceil_eps_le hb)
  rcases Nat.eq_zero_or_pos (cdiv a b) with h0 | h0
  · omega
  have hq : (0 : ℚ) < b := by exact_mod_cast hb
  have hne : cdiv a b = (cdiv a b - 1) + 1 := by omega
  have hlow : (cdiv a b - 1) * b + 1 ≤ a := by
    by_contra hc
    have : cdiv a b ≤ cdiv a b - 1 := cdiv_le_of hb (by omega)
    omega
  have hz : ((cdiv a b - 1 : ℕ) : ℤ) < ⌈(a : ℚ) / (b : ℚ) - 1 / 10 ^ 9⌉ := by
    rw [Int.lt_ceil]
    have hl : (((cdiv a b - 1) * b + 1 : ℕ) : ℚ) ≤ a := by exact_mod_cast hlow
    push_cast at hl
    rw [lt_sub_iff_add_lt, lt_div_iff₀ hq]
    have hb9 : (b : ℚ) < 10 ^ 9 := by exact_mod_cast hlt
    have : (1 : ℚ) / 10 ^ 9 * b < 1 := by
      rw [one_div, inv_mul_lt_iff₀ (by norm_num)]
      linarith
    push_cast
    generalize ((cdiv a b - 1 : ℕ) : ℚ) = q at *
    nlinarith
  omega

theorem Res.bind_eq_ok {α β : Type} (a : α) (f : α → Res β) : (Res.ok a).bind f = f a := rfl

theorem baseLayers_ok {env : LayerEnv} {s : SectionIn} {physical : Nat} {room : Room} {n : Nat}
    (h : baseLayers env s physical room = .ok n) :
    n ≤ physical ∧ (s.numberLayers ≠ some 0 → 0 < physical → 0 < n) ∧
    (∀ m, s.numberLayers = some m → n = min m physical) ∧
    (s.numberLayers = none → 0 < room.maxPer →
      n ≤ cdiv physical room.maxPer ∧
      (room.fit = 0 ∨ env.overflow = true ∨ cdiv physical room.maxPer ≤ room.fit →
        n = cdiv physical room.maxPer) ∧
      (0 < room.fit → env.overflow = false → n ≤ room.fit)) := by
  unfold baseLayers at h
  obtain ⟨m, hm, h⟩ := bind_ok h
  simp only [Res.ok.injEq] at h
  subst h
  refine ⟨min_le_right _ _, ?_⟩
  cases hn : s.numberLayers with
  | some k =>
    rw [hn] at hm
    simp only [Res.ok.injEq] at hm
    subst hm
    refine ⟨?_, ?_, by simp⟩
    · intro h0 hp
      have : k ≠ 0 := fun h => h0 (by rw [h])
      omega
    · intro m hm
      simp only [Option.some.injEq] at hm
      rw [hm]
  | none =>
    rw [hn] at hm
    simp only at hm
    refine ⟨?_, by simp, ?_⟩
    · intro _ hp
      by_cases hfit : room.fit = 0
      · rw [if_pos hfit] at hm
        obtain ⟨hmp, hm⟩ := ite_ok (by simp) hm
        simp only [Res.ok.injEq] at hm
        rw [ceil_div_nat (by omega), Int.toNat_natCast] at hm
        have := cdiv_pos (c := physical) (m := room.maxPer) (by omega) hp
        omega
      · rw [if_neg hfit] at hm
        by_cases hmp : room.maxPer = 0
        · rw [if_pos hmp] at hm
          simp only [Res.ok.injEq] at hm
          omega
        · rw [if_neg hmp] at hm
          simp only [Res.ok.injEq] at hm
          rw [ceil_div_nat (by omega), Int.toNat_natCast] at hm
          have := cdiv_pos (c := physical) (m := room.maxPer) (by omega) hp
          split at hm <;> omega
    · intro _ hmp
      have hle := cdiv_le (c := physical) hmp
      by_cases hfit : room.fit = 0
      · rw [if_pos hfit, if_neg hmp.ne'] at hm
        simp only [Res.ok.injEq] at hm
        rw [ceil_div_nat hmp, Int.toNat_natCast] at hm
        omega
      · rw [if_neg hfit, if_neg hmp.ne'] at hm
        simp only [Res.ok.injEq] at hm
        rw [ceil_div_nat hmp, Int.toNat_natCast] at hm
        cases ho : env.overflow
        · simp only [ho, Bool.false_eq_true, if_false, false_or] at hm ⊢
          exact ⟨by omega, fun h => by omega, fun _ _ => by omega⟩
        · simp only [ho, if_true, Bool.true_eq_false] at hm ⊢
          exact ⟨by omega, fun h => by omega, fun _ h => absurd h (by simp)⟩

theorem growLayers_ok {s : SectionIn} {physical : Nat} {room : Room} {n m : Nat}
    (h : growLayers s physical room n = .ok m) :
    (n ≤ physical → m ≤ physical) ∧ (0 < n → 0 < m) ∧
    (∀ k, s.numberLayers = some k → m = n) ∧
    (0 < s.parallels → n ≤ cdiv physical s.parallels → m ≤ cdiv physical s.parallels) := by
  unfold growLayers at h
  by_cases hg : s.parallels > 1 ∧ s.numberLayers = none ∧ room.maxPer > 0 ∧ n > 0
  · rw [if_pos hg] at h
    obtain ⟨t, _, h⟩ := bind_ok h
    simp only at h
    have hP : 0 < s.parallels := by omega
    by_cases ht : t = .parallels ∧ room.maxPer / s.parallels > 0
    · rw [if_pos ht] at h
      have h1 := ceil_eps_le (a := physical) hP
      have h2 := cdiv_le (c := physical) hP
      have h3 := ceil_eps_le (a := ⌈(physical : ℚ) / (s.parallels : ℚ) - 1 / 10 ^ 9⌉.toNat) ht.2
      have h4 := cdiv_le (c := ⌈(physical : ℚ) / (s.parallels : ℚ) - 1 / 10 ^ 9⌉.toNat) ht.2
      generalize ⌈(physical : ℚ) / (s.parallels : ℚ) - 1 / 10 ^ 9⌉.toNat = a at *
      generalize ⌈(a : ℚ) / ((room.maxPer / s.parallels : ℕ) : ℚ) - 1 / 10 ^ 9⌉.toNat = b at *
      by_cases hx : ⌈(a : ℚ) / (n : ℚ) - 1 / 10 ^ 9⌉.toNat * s.parallels > room.maxPer
      · rw [if_pos hx] at h
        simp only [Res.ok.injEq] at h
        refine ⟨fun hn => ?_, fun hn => ?_, fun k hk => ?_, fun _ hn => ?_⟩
        · split at h <;> omega
        · split at h <;> omega
        · rw [hg.2.1] at hk; simp at hk
        · split at h <;> omega
      · rw [if_neg hx] at h
        simp only [Res.ok.injEq] at h
        subst h
        exact ⟨id, id, fun _ _ => rfl, fun _ => id⟩
    · rw [if_neg ht] at h
      simp only [Res.ok.injEq] at h
      subst h
      exact ⟨id, id, fun _ _ => rfl, fun _ => id⟩
  · rw [if_neg hg] at h
    simp only [Res.ok.injEq] at h
    subst h
    exact ⟨id, id, fun _ _ => rfl, fun _ => id⟩

theorem sumTurns_take {T : Nat} (hT : 0 < T) {cs : List Nat} {P : Nat} (hlen : cs.length = P) :
    sumTurns T ((props T cs).take P) = .ok cs.sum := by
  rw [take_self (by simp [hlen]), sumTurns_props hT]

/-- Inversion of the planning. -/
theorem planLayers_ok {env : LayerEnv} {s : SectionIn} {plan : LayerPlan} (h : planLayers env s = .ok plan)
    (hT : 0 < s.turns) {cs : List Nat} (hlen : cs.length = s.parallels) (hps : s.props = props s.turns cs) :
    roomFor env s = .ok plan.room ∧
    (∃ n₀, baseLayers env s cs.sum plan.room = .ok n₀ ∧
      (blocked env s plan.room = false → growLayers s cs.sum plan.room n₀ = .ok plan.count ∧ plan.forced = none)) ∧
    styleFor env s plan.room plan.count = .ok plan.style ∧
    (blocked env s plan.room = true →
      plan.forced = some (blockedTurns s.parallels s.capacity cs.sum 0) ∧
      plan.count = (blockedTurns s.parallels s.capacity cs.sum 0).length ∧
      (0 < cs.sum → 0 < s.parallels)) := by
  unfold planLayers at h
  obtain ⟨_, h⟩ := ite_ok (by simp) h
  obtain ⟨physical, hph, h⟩ := bind_ok h
  rw [hps, sumTurns_take hT hlen] at hph
  simp only [Res.ok.injEq] at hph
  subst hph
  obtain ⟨room, hroom, h⟩ := bind_ok h
  obtain ⟨n₀, hn₀, h⟩ := bind_ok h
  cases hb : blocked env s room
  · rw [hb, if_neg (by simp)] at h
    obtain ⟨n, hn, h⟩ := bind_ok h
    obtain ⟨st, hst, h⟩ := bind_ok h
    simp only [Res.ok.injEq] at h
    subst h
    refine ⟨hroom, ⟨n₀, hn₀, fun _ => ⟨hn, rfl⟩⟩, hst, fun h => ?_⟩
    simp only at h
    rw [hb] at h
    simp at h
  · rw [hb, if_pos rfl] at h
    obtain ⟨hp, h⟩ := ite_ok (by simp) h
    obtain ⟨st, hst, h⟩ := bind_ok h
    simp only [Res.ok.injEq] at h
    subst h
    refine ⟨hroom, ⟨n₀, hn₀, fun h => ?_⟩, hst, fun _ => ⟨rfl, rfl, fun _ => by omega⟩⟩
    simp only at h
    rw [hb] at h
    simp at h

theorem styleFor_ok {env : LayerEnv} {s : SectionIn} {room : Room} {n : Nat} {st : Style}
    (h : styleFor env s room n = .ok st) :
    (st = .parallels → s.parallels ≤ room.maxPer) ∧
    (env.real = false → blocked env s room = false → s.style = some .turns → st = .turns) ∧
    (s.style = some .parallels → s.parallels ≤ room.maxPer → blocked env s room = false → st = .parallels) := by
  unfold styleFor at h
  obtain ⟨st₀, h0, h⟩ := bind_ok h
  simp only [Res.ok.injEq] at h
  refine ⟨?_, ?_, ?_⟩
  · rintro rfl
    by_cases hbl : blocked env s room = true ∧ s.parallels = 1
    · rw [if_pos hbl] at h; simp at h
    · rw [if_neg hbl] at h
      by_contra hc
      by_cases h1 : (if env.real = true ∧ s.parallels > 1 then Style.parallels else st₀) = .parallels
      · rw [if_pos ⟨h1, by omega⟩] at h; simp at h
      · rw [if_neg (fun hh => h1 hh.1)] at h
        exact h1 h
  · intro hr hbl hs
    rw [hs] at h0
    simp only [Res.ok.injEq] at h0
    subst h0
    simpa [hr, hbl] using h.symm
  · intro hs hP hbl
    rw [hs] at h0
    simp only [Res.ok.injEq] at h0
    subst h0
    rw [if_neg (by simp [hbl]), ite_self, if_neg (by omega)] at h
    exact h.symm

theorem sum_le_mul {cs : List Nat} {b : Nat} (h : ∀ c ∈ cs, c ≤ b) : cs.sum ≤ cs.length * b := by
  have := List.sum_le_card_nsmul cs b h
  simpa using this

/-- Some parallel has at least the average. -/
theorem exists_ge_cdiv {cs : List Nat} (h : 0 < cs.length) : ∃ c ∈ cs, cdiv cs.sum cs.length ≤ c := by
  by_contra hc
  push Not at hc
  have hpos : 0 < cdiv cs.sum cs.length := by
    obtain ⟨c, hm⟩ := List.exists_mem_of_length_pos h
    have := hc c hm
    omega
  have h1 : cs.sum ≤ cs.length * (cdiv cs.sum cs.length - 1) :=
    sum_le_mul fun c hm => by have := hc c hm; omega
  have := cdiv_le_of (c := cs.sum) (k := cdiv cs.sum cs.length - 1) h (by rw [Nat.mul_comm]; exact h1)
  omega

/-- Which rows of the splitting are empty. -/
theorem runNat_nonzero {style : Style} {m : Nat} {cs : List Nat} :
    (∀ row ∈ runNat style m cs, ∃ k ∈ row, k ≠ 0) ↔
      m = 0 ∨ (style = .turns ∧ m ≤ cs.sum) ∨ (style = .parallels ∧ ∃ c ∈ cs, m ≤ c) := by
  rcases Nat.eq_zero_or_pos m with h0 | h0
  · subst h0; simp [runNat]
  have hlen := runNat_length style m cs
  constructor
  · intro h
    right
    have hlast : m - 1 < (runNat style m cs).length := by omega
    obtain ⟨k, hk, hne⟩ := h _ (List.getElem_mem hlast)
    have hget := List.getElem?_eq_getElem hlast
    cases style with
    | turns =>
      left
      refine ⟨rfl, ?_⟩
      have hs := runNat_turns_sum _ _ _ _ hget
      have := List.le_sum_of_mem hk
      by_contra hc
      rw [Nat.div_eq_of_lt (by omega), Nat.mod_eq_of_lt (by omega)] at hs
      rw [if_neg (by omega)] at hs
      omega
    | parallels =>
      right
      refine ⟨rfl, ?_⟩
      rw [runNat_parallels _ _ _ _ hget] at hk
      obtain ⟨c, hc, rfl⟩ := List.mem_map.mp hk
      refine ⟨c, hc, ?_⟩
      by_contra hlt
      rw [Nat.div_eq_of_lt (by omega), Nat.mod_eq_of_lt (by omega), if_neg (by omega)] at hne
      omega
  · rintro (h | ⟨rfl, h⟩ | ⟨rfl, c, hc, h⟩)
    · omega
    · intro row hrow
      obtain ⟨i, hi, rfl⟩ := List.mem_iff_getElem.mp hrow
      have hs := runNat_turns_sum _ _ _ _ (List.getElem?_eq_getElem hi)
      have := Nat.div_pos h h0
      by_contra hz
      push Not at hz
      have : (runNat Style.turns m cs)[i].sum = 0 := List.sum_eq_zero hz
      omega
    · intro row hrow
      obtain ⟨i, hi, rfl⟩ := List.mem_iff_getElem.mp hrow
      rw [runNat_parallels _ _ _ _ (List.getElem?_eq_getElem hi)]
      have := Nat.div_pos h h0
      exact ⟨_, List.mem_map.mpr ⟨c, hc, rfl⟩, by omega⟩

theorem runForced_nonzero {style : Style} {per cs : List Nat} (hsum : per.sum ≤ cs.sum) (hpos : ∀ t ∈ per, 0 < t) :
    ∀ row ∈ runForced style per cs, ∃ k ∈ row, k ≠ 0 := by
  intro row hrow
  have h := runForced_sums style per cs hsum
  have hm : row.sum ∈ per := by rw [← h]; exact List.mem_map.mpr ⟨row, hrow, rfl⟩
  have := hpos _ hm
  by_contra hz
  push Not at hz
  have : row.sum = 0 := List.sum_eq_zero hz
  omega

end Verif.Winding
