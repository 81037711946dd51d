import Verif.Fft.Dft
import Mathlib.Analysis.Complex.Trigonometric

/-! # Components of real values -/

namespace Verif.Fft

set_option linter.unusedSimpArgs false

open Finset Complex

theorem turn_eq (N j q : Nat) : turn N j q = tw N (-(j * q : ℤ)) := by
  unfold turn tw
  congr 1
  push_cast
  ring

/-- A real value of a list, zero outside it. -/
theorem component_eq (x : List ℝ) (q : Nat) :
    component x q = ∑ j ∈ range x.length, ((val x j : ℝ) : ℂ) * tw x.length (-(j * q : ℤ)) := by
  unfold component
  rw [← Fin.sum_univ_eq_sum_range (fun j : Nat => ((val x j : ℝ) : ℂ) * tw x.length (-(j * q : ℤ)))]
  apply sum_congr rfl
  intro j _
  rw [turn_eq, val_of (v := x.get j) (by simp)]

theorem val_ofReal (x : List ℝ) (i : Nat) : val (x.map fun d : ℝ => (d : ℂ)) i = ((val x i : ℝ) : ℂ) := by
  unfold val
  rw [List.getElem?_map]
  cases x[i]? <;> simp

theorem transform_real (m : Nat) (h1 : 1 ≤ m) (h2 : m ≤ 31) (x : List ℝ) (hx : x.length = 2 ^ m) :
    transform (x.map fun d : ℝ => (d : ℂ)) = .ok ((List.range x.length).map (component x)) := by
  rw [transform_eq m h1 h2 _ (by simpa using hx)]
  congr 1
  rw [hx]
  apply List.map_congr_left
  intro q _
  rw [component_eq, hx]
  apply sum_congr rfl
  intro j _
  rw [val_ofReal]

theorem isPow (m : Nat) : Sampling.isSizePowerOf2 (2 ^ m) = true := by
  unfold Sampling.isSizePowerOf2
  simp

theorem harmonics_eq (m : Nat) (h1 : 1 ≤ m) (h2 : m ≤ 31) (x : List ℝ) (hx : x.length = 2 ^ m) (frequency : ℝ) :
    harmonics x frequency = .ok
      { amplitudes := (List.range (x.length / 2)).map (amplitudeAt x)
        frequencies := (List.range (x.length / 2)).map fun i : Nat => frequency * i } := by
  obtain ⟨m, rfl⟩ : ∃ k, m = k + 1 := ⟨m - 1, by omega⟩
  have hp : 0 < 2 ^ m := by positivity
  have hl : x.length / 2 = 2 ^ m := by rw [hx, pow_succ]; omega
  have hl' : x.length = 2 * 2 ^ m := by rw [hx, pow_succ]; ring
  unfold harmonics
  rw [hx, isPow, if_neg (by simp), transform_real (m + 1) h1 h2 x hx]
  simp only [Res.bind]
  have hN : 0 < x.length := by omega
  obtain ⟨n, hn⟩ : ∃ n, x.length = n + 1 := ⟨x.length - 1, by omega⟩
  unfold harmonicsOf
  have e : (List.range x.length).map (component x) = component x 0 :: (List.range' 1 n).map (component x) := by
    rw [hn, List.range_eq_range', List.range'_succ, List.map_cons]
  rw [e]
  simp only [List.length_cons, List.length_map, List.length_range', ← hn]
  congr 1
  rw [Harmonics.mk.injEq]
  refine ⟨?_, ?_⟩
  · rw [← e]
    obtain ⟨k, hk⟩ : ∃ k, x.length / 2 = k + 1 := ⟨x.length / 2 - 1, by omega⟩
    rw [← hx] at *
    apply List.ext_getElem?
    intro i
    rcases i with _ | i
    · rw [hk]
      simp [List.range_succ_eq_map, amplitudeAt]
    · simp only [List.getElem?_cons_succ, List.getElem?_map, List.getElem?_drop, List.getElem?_take]
      by_cases hi : i + 1 < x.length / 2
      · rw [if_pos (by omega), List.getElem?_range (by omega), List.getElem?_range (by omega)]
        simp [amplitudeAt, Nat.add_comm 1 i]
      · rw [if_neg (by omega), List.getElem?_eq_none (by simp; omega)]
        simp
  · rw [hx]

theorem norm_conj_component (x : List ℝ) (q : Nat) (hq : q ≤ x.length) :
    component x (x.length - q) = starRingEnd ℂ (component x q) := by
  rw [component_eq, component_eq, map_sum]
  apply sum_congr rfl
  intro j hj
  have hN : 0 < x.length := by have := mem_range.mp hj; omega
  rw [map_mul, conj_ofReal, ← tw_neg, neg_neg]
  congr 1
  have e : (-((j : ℤ) * ((x.length - q : ℕ) : ℤ)) : ℤ) = (j * q : ℤ) + (x.length : ℤ) * (-j) := by
    rw [Nat.cast_sub hq]; ring
  rw [e, tw_add, (tw_eq_one_iff _ hN _).mpr (dvd_mul_right _ _), mul_one]

/-- The sum of squares of components. -/
theorem parseval (x : List ℝ) (hN : 0 < x.length) :
    ∑ q ∈ range x.length, ‖component x q‖ ^ 2 = x.length * ∑ j ∈ range x.length, (val x j) ^ 2 := by
  have key : (∑ q ∈ range x.length, ((‖component x q‖ ^ 2 : ℝ) : ℂ)) = ((x.length * ∑ j ∈ range x.length, (val x j) ^ 2 : ℝ) : ℂ) := by
    have e1 : ∀ q, ((‖component x q‖ ^ 2 : ℝ) : ℂ) = component x q * ∑ i ∈ range x.length, ((val x i : ℝ) : ℂ) * tw x.length (i * q : ℤ) := by
      intro q
      rw [← normSq_eq_norm_sq, ← mul_conj]
      congr 1
      rw [component_eq, map_sum]
      apply sum_congr rfl
      intro i _
      rw [map_mul, conj_ofReal, ← tw_neg, neg_neg]
    simp only [e1, mul_sum]
    rw [sum_comm]
    push_cast
    apply sum_congr rfl
    intro i hi
    have := inversion x.length hN (fun j => ((val x j : ℝ) : ℂ)) i (mem_range.mp hi)
    simp only [← component_eq] at this
    have e2 : ∀ q : Nat, component x q * (((val x i : ℝ) : ℂ) * tw x.length (i * q : ℤ)) = (component x q * tw x.length (i * q : ℤ)) * val x i := by
      intro q; ring
    simp only [e2]
    rw [← sum_mul, this]
    ring
  have key' : ((∑ q ∈ range x.length, ‖component x q‖ ^ 2 : ℝ) : ℂ) = ((x.length * ∑ j ∈ range x.length, (val x j) ^ 2 : ℝ) : ℂ) := by
    rw [← key]; push_cast; rfl
  exact_mod_cast key'

/-- A sum over a period of a symmetric function. -/
theorem sum_symmetric (M : Nat) (hM : 0 < M) (f : Nat → ℝ) (h : ∀ q, q ≤ 2 * M → f (2 * M - q) = f q) :
    ∑ q ∈ range (2 * M), f q = f 0 + 2 * ∑ q ∈ Ico 1 M, f q + f M := by
  rw [range_eq_Ico, ← sum_Ico_consecutive f (Nat.zero_le M) (by omega : M ≤ 2 * M)]
  rw [sum_eq_sum_Ico_succ_bot hM, sum_eq_sum_Ico_succ_bot (by omega : M < 2 * M)]
  have : ∑ k ∈ Ico (M + 1) (2 * M), f k = ∑ q ∈ Ico 1 M, f q := by
    have r := sum_Ico_reflect f 1 (by omega : M ≤ 2 * M + 1)
    rw [show 2 * M + 1 - M = M + 1 by omega, show 2 * M + 1 - 1 = 2 * M by omega] at r
    rw [← r]
    apply sum_congr rfl
    intro q hq
    rw [h q (by have := mem_Ico.mp hq; omega)]
  rw [this]
  ring

/-! ## Components of changed values -/

theorem val_map_real (x : List ℝ) (f : ℝ → ℝ) (i : Nat) (hi : i < x.length) : val (x.map f) i = f (val x i) := by
  apply val_of
  rw [List.getElem?_map, val_get hi]
  rfl

theorem component_scale (x : List ℝ) (s : ℝ) (q : Nat) : component (x.map (s * ·)) q = s * component x q := by
  rw [component_eq, component_eq, List.length_map, mul_sum]
  apply sum_congr rfl
  intro j hj
  rw [val_map_real x _ j (mem_range.mp hj)]
  push_cast
  ring

theorem component_offset (x : List ℝ) (c : ℝ) (q : Nat) (h0 : 0 < q) (hq : q < x.length) :
    component (x.map (· + c)) q = component x q := by
  rw [component_eq, component_eq, List.length_map]
  have : ∀ j ∈ range x.length, ((val (x.map (· + c)) j : ℝ) : ℂ) * tw x.length (-(j * q : ℤ)) =
      ((val x j : ℝ) : ℂ) * tw x.length (-(j * q : ℤ)) + c * tw x.length ((-q : ℤ) * j) := by
    intro j hj
    rw [val_map_real x _ j (mem_range.mp hj), show ((-q : ℤ) * j) = -(j * q : ℤ) by ring]
    push_cast
    ring
  rw [sum_congr rfl this, sum_add_distrib, ← mul_sum, tw_sum _ (by omega), if_neg, mul_zero, add_zero]
  rintro ⟨k, hk⟩
  rcases lt_trichotomy k 0 with h | h | h
  · have : (x.length : ℤ) * k ≤ -x.length := by nlinarith
    omega
  · subst h; omega
  · have : (x.length : ℤ) * k ≥ x.length := by nlinarith
    omega

theorem component_zero (x : List ℝ) : component x 0 = (x.sum : ℝ) := by
  unfold component
  have : x.sum = ∑ j : Fin x.length, x.get j := by
    conv_lhs => rw [← List.ofFn_get x, List.sum_ofFn]
  rw [this]
  push_cast
  apply sum_congr rfl
  intro j _
  simp [turn]

theorem component_add (x y : List ℝ) (h : x.length = y.length) (q : Nat) :
    component (List.zipWith (· + ·) x y) q = component x q + component y q := by
  have hl : (List.zipWith (· + ·) x y).length = x.length := by simp [h]
  rw [component_eq, component_eq, component_eq, hl, ← h, ← sum_add_distrib]
  apply sum_congr rfl
  intro j hj
  have hj' := mem_range.mp hj
  rw [val_of (v := val x j + val y j)]
  · push_cast; ring
  · rw [List.getElem?_zipWith, val_get hj', val_get (h ▸ hj')]

theorem component_rotate (x : List ℝ) (s q : Nat) :
    component (x.rotate s) q = tw x.length (s * q : ℤ) * component x q := by
  rcases Nat.eq_zero_or_pos x.length with h0 | hN
  · rw [List.length_eq_zero_iff] at h0
    subst h0
    rw [component_eq, component_eq]
    simp
  rw [component_eq, component_eq, List.length_rotate, mul_sum]
  have per : ∀ a b : ℕ, a % x.length = b % x.length → tw x.length (-(a * q : ℤ)) = tw x.length (-(b * q : ℤ)) := by
    intro a b hab
    have hd : (x.length : ℤ) ∣ ((b : ℤ) - a) := by
      have := (Nat.modEq_iff_dvd (n := x.length) (a := a) (b := b)).mp hab
      exact this
    have e : (-(a * q : ℤ)) = (-(b * q : ℤ)) + ((b : ℤ) - a) * q := by ring
    rw [e, tw_add, (tw_eq_one_iff _ hN _).mpr (Dvd.dvd.mul_right hd _), mul_one]
  have hv : ∀ j < x.length, val (x.rotate s) j = val x ((j + s) % x.length) := by
    intro j hj
    unfold val
    rw [List.getElem?_rotate hj]
  let t := s % x.length
  have hmod : ∀ j, (j + s) % x.length = (j + t) % x.length := by intro j; simp [t]
  -- substitute the shifted index
  have hbij : ∑ j ∈ range x.length, tw x.length (s * q : ℤ) * (((val x j : ℝ) : ℂ) * tw x.length (-(j * q : ℤ))) =
      ∑ j ∈ range x.length, tw x.length (s * q : ℤ) *
        (((val x ((j + s) % x.length) : ℝ) : ℂ) * tw x.length (-(((j + s) % x.length : ℕ) * q : ℤ))) := by
    symm
    apply sum_bij (fun j _ => (j + s) % x.length)
    · intro j _
      exact mem_range.mpr (Nat.mod_lt _ hN)
    · intro a ha b hb hab
      have h1 : a ≡ b [MOD x.length] := Nat.ModEq.add_right_cancel' s hab
      rw [Nat.ModEq, Nat.mod_eq_of_lt (mem_range.mp ha), Nat.mod_eq_of_lt (mem_range.mp hb)] at h1
      exact h1
    · intro b hb
      have hb' := mem_range.mp hb
      have ht : t < x.length := Nat.mod_lt _ hN
      refine ⟨(b + (x.length - t)) % x.length, mem_range.mpr (Nat.mod_lt _ hN), ?_⟩
      rw [hmod, Nat.mod_add_mod, show b + (x.length - t) + t = b + x.length by omega, Nat.add_mod_right,
        Nat.mod_eq_of_lt hb']
    · intro j _
      rfl
  rw [hbij]
  apply sum_congr rfl
  intro j hj
  rw [hv j (mem_range.mp hj), per ((j + s) % x.length) (j + s) (Nat.mod_mod _ _)]
  have : tw x.length (s * q : ℤ) * tw x.length (-((j + s : ℕ) * q : ℤ)) = tw x.length (-(j * q : ℤ)) := by
    rw [← tw_add]
    congr 1
    push_cast
    ring
  rw [← this]
  ring

/-! ## Components of signals made of harmonics -/

theorem cos_tw (N h j : Nat) (p : ℝ) :
    ((Real.cos (2 * Real.pi * h * j / N + p) : ℝ) : ℂ) =
      (exp (p * I) * tw N (h * j : ℤ) + exp (-p * I) * tw N (-(h * j : ℤ))) / 2 := by
  rw [ofReal_cos, Complex.cos, tw, tw, ← exp_add, ← exp_add]
  congr 3 <;> · push_cast; ring

theorem not_dvd_small (N : Nat) (d : ℤ) (h0 : d ≠ 0) (h1 : -(N : ℤ) < d) (h2 : d < N) : ¬ (N : ℤ) ∣ d := by
  rintro ⟨c, rfl⟩
  rcases lt_trichotomy c 0 with h | h | h
  · have : (N : ℤ) * c ≤ -N := by nlinarith
    omega
  · subst h; simp at h0
  · have : (N : ℤ) * c ≥ N := by nlinarith
    omega

theorem component_signal (N M : Nat) (hM : 2 * M ≤ N) (hN : 0 < N) (c p : Nat → ℝ) (q : Nat) (hq : 2 * q < N) :
    component (signal N M c p) q =
      if q < M then (if q = 0 then ((N * (c 0 * Real.cos (p 0)) : ℝ) : ℂ) else (N : ℂ) / 2 * c q * exp (p q * I)) else 0 := by
  have hl : (signal N M c p).length = N := by simp [signal]
  rw [component_eq, hl]
  have hv : ∀ j ∈ range N, ((val (signal N M c p) j : ℝ) : ℂ) * tw N (-(j * q : ℤ)) =
      ∑ h ∈ range M, (c h / 2 : ℂ) * (exp (p h * I) * tw N (((h : ℤ) - q) * j) + exp (-p h * I) * tw N ((-(h : ℤ) - q) * j)) := by
    intro j hj
    have hv' : val (signal N M c p) j = ∑ h ∈ range M, c h * Real.cos (2 * Real.pi * h * j / N + p h) := by
      apply val_of
      simp [signal, mem_range.mp hj]
    rw [hv']
    push_cast
    rw [sum_mul]
    apply sum_congr rfl
    intro h _
    have e := cos_tw N h j (p h)
    push_cast at e
    rw [e]
    have e1 : tw N (((h : ℤ) - q) * j) = tw N (h * j : ℤ) * tw N (-(j * q : ℤ)) := by
      rw [← tw_add]; congr 1; ring
    have e2 : tw N ((-(h : ℤ) - q) * j) = tw N (-(h * j : ℤ)) * tw N (-(j * q : ℤ)) := by
      rw [← tw_add]; congr 1; ring
    rw [e1, e2]
    ring
  rw [sum_congr rfl hv, sum_comm]
  have hs : ∀ h ∈ range M, ∑ j ∈ range N, (c h / 2 : ℂ) * (exp (p h * I) * tw N (((h : ℤ) - q) * j) + exp (-p h * I) * tw N ((-(h : ℤ) - q) * j)) =
      if h = q then (if q = 0 then ((N * (c 0 * Real.cos (p 0)) : ℝ) : ℂ) else (N : ℂ) / 2 * c q * exp (p q * I)) else 0 := by
    intro h hh
    have hh' := mem_range.mp hh
    rw [← mul_sum, sum_add_distrib, ← mul_sum, ← mul_sum, tw_sum N hN, tw_sum N hN]
    by_cases e : h = q
    · subst e
      rw [if_pos rfl, sub_self, if_pos (dvd_zero _)]
      by_cases h0 : h = 0
      · subst h0
        rw [if_pos rfl, if_pos (by simp)]
        push_cast
        rw [Complex.cos]
        ring
      · rw [if_neg h0, if_neg (not_dvd_small N _ (by omega) (by omega) (by omega))]
        ring
    · rw [if_neg e, if_neg (not_dvd_small N _ (by omega) (by omega) (by omega)),
        if_neg (not_dvd_small N _ (by omega) (by omega) (by omega))]
      ring
  rw [sum_congr rfl hs]
  by_cases hqM : q < M
  · rw [if_pos hqM, sum_ite_eq' , if_pos (mem_range.mpr hqM)]
  · rw [if_neg hqM]
    apply sum_eq_zero
    intro h hh
    rw [if_neg (by have := mem_range.mp hh; omega)]

end Verif.Fft
