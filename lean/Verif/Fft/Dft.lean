import Verif.Fft.Exp
import Verif.Fft.Spec

/-! # The transform computes the sums of Fourier -/

namespace Verif.Fft

set_option linter.unusedSimpArgs false

open Finset Complex

theorem dft_eq {F : Type} [CommRing F] (w : F) (x : List F) (q : Nat) : dft w x q = block w x.length x 0 q := by
  unfold dft block
  rw [← Fin.sum_univ_eq_sum_range (fun j => val x (0 + j) * w ^ (j * q))]
  apply sum_congr rfl
  intro j _
  have : val x (0 + j.val) = x.get j := by
    rw [Nat.zero_add]
    exact val_of (by simp)
  rw [this]

theorem fft_spec {F : Type} [CommRing F] (phi : F) (m : Nat) (h1 : 1 ≤ m) (h2 : m ≤ 31) (x : List F)
    (hx : x.length = 2 ^ m) (hphi : phi ^ (2 ^ m) = -1) :
    fft phi x = .ok ((List.range (2 ^ m)).map (dft (phi * phi) x)) := by
  have hN : 0 < 2 ^ m := by positivity
  obtain ⟨y, hy, hyl, hyv⟩ := stages_spec (2 ^ m) m phi x dvd_rfl hx hphi
  obtain ⟨z, hz, hzl, hzv⟩ := decimate_spec m (rev m) (2 ^ m) (fun a ha => partner_eq m a h1 h2 ha)
    (fun a _ => rev_lt m a) (fun a ha => rev_rev m a ha) y hyl (2 ^ m) le_rfl
  unfold fft
  rw [hx, hy]
  simp only [Res.bind]
  rw [if_neg (by omega), Nat.log_pow (by norm_num), if_neg (by omega), hz]
  congr 1
  apply list_ext
  · simp [hzl]
  · intro i hi
    rw [hzl] at hi
    rw [hzv i hi, if_pos (Or.inl hi)]
    have := hyv 0 (rev m i) (by simpa using rev_lt m i) (rev_lt m i)
    rw [Nat.zero_mul, Nat.zero_add] at this
    rw [this, rev_rev m i hi]
    rw [val_of (v := dft (phi * phi) x i) (by simp [hi]), dft_eq, hx]

theorem tw_pow (N : Nat) (j q : Nat) : tw N (-1) ^ (j * q) = tw N (-(j * q : ℤ)) := by
  rw [← tw_mul_nat]
  congr 1
  push_cast
  ring

/-- The value at `i`, zero outside. -/
theorem dft_tw (N : Nat) (x : List ℂ) (hx : x.length = N) (q : Nat) :
    dft (tw N (-1)) x q = ∑ j ∈ range N, val x j * tw N (-(j * q : ℤ)) := by
  rw [dft_eq, hx, block]
  simp only [Nat.zero_add, tw_pow]

theorem transform_eq (m : Nat) (h1 : 1 ≤ m) (h2 : m ≤ 31) (x : List ℂ) (hx : x.length = 2 ^ m) :
    transform x = .ok ((List.range (2 ^ m)).map fun q : Nat => ∑ j ∈ range (2 ^ m), val x j * tw (2 ^ m) (-(j * q : ℤ))) := by
  unfold transform
  rw [hx, fft_spec _ m h1 h2 x hx (rootOf_pow _ (by positivity)), rootOf_sq]
  congr 1
  apply List.map_congr_left
  intro q _
  exact dft_tw _ x hx q

/-- Inversion at one index. -/
theorem inversion (N : Nat) (hN : 0 < N) (f : Nat → ℂ) (i : Nat) (hi : i < N) :
    ∑ q ∈ range N, (∑ j ∈ range N, f j * tw N (-(j * q : ℤ))) * tw N (i * q : ℤ) = N * f i := by
  simp only [sum_mul]
  rw [sum_comm]
  have : ∀ j ∈ range N, ∑ q ∈ range N, f j * tw N (-(j * q : ℤ)) * tw N (i * q : ℤ) = if j = i then (N : ℂ) * f i else 0 := by
    intro j hj
    have hj' := mem_range.mp hj
    have e : ∀ q : Nat, f j * tw N (-(j * q : ℤ)) * tw N (i * q : ℤ) = f j * tw N (((i : ℤ) - j) * q) := by
      intro q
      rw [mul_assoc, ← tw_add]
      congr 2
      ring
    simp only [e]
    rw [← mul_sum, tw_sum N hN]
    by_cases h : j = i
    · subst h; simp; ring
    · rw [if_neg h, if_neg ?_, mul_zero]
      rintro ⟨c, hc⟩
      have : c = 0 := by
        rcases lt_trichotomy c 0 with h0 | h0 | h0
        · have : (N : ℤ) * c ≤ -N := by nlinarith
          omega
        · exact h0
        · have : (N : ℤ) * c ≥ N := by nlinarith
          omega
      subst this
      omega
  rw [sum_congr rfl this]
  simp [hi]

theorem val_map_conj (x : List ℂ) (i : Nat) : val (x.map (starRingEnd ℂ)) i = starRingEnd ℂ (val x i) := by
  unfold val
  rw [List.getElem?_map]
  cases x[i]? <;> simp

theorem val_range_map (N : Nat) (f : Nat → ℂ) (i : Nat) (hi : i < N) : val ((List.range N).map f) i = f i := by
  apply val_of
  simp [hi]

theorem inverse_eq (m : Nat) (h1 : 1 ≤ m) (h2 : m ≤ 31) (x : List ℂ) (hx : x.length = 2 ^ m) :
    inverse x = .ok ((List.range (2 ^ m)).map fun q : Nat =>
      (∑ j ∈ range (2 ^ m), val x j * tw (2 ^ m) (j * q : ℤ)) / (2 ^ m : ℕ)) := by
  unfold inverse
  rw [transform_eq m h1 h2 _ (by simpa using hx)]
  simp only [Res.bind, List.map_map, hx]
  congr 1
  apply List.map_congr_left
  intro q _
  simp only [Function.comp]
  congr 1
  rw [map_sum]
  apply sum_congr rfl
  intro j _
  rw [map_mul, val_map_conj, conj_conj, ← tw_neg, neg_neg]

theorem inverse_transform_eq (m : Nat) (h1 : 1 ≤ m) (h2 : m ≤ 31) (x : List ℂ) (hx : x.length = 2 ^ m) :
    (transform x).bind inverse = .ok x := by
  have hN : 0 < 2 ^ m := by positivity
  rw [transform_eq m h1 h2 x hx]
  simp only [Res.bind]
  rw [inverse_eq m h1 h2 _ (by simp)]
  congr 1
  apply list_ext (by simp [hx])
  intro i hi
  simp only [List.length_map, List.length_range] at hi
  rw [val_range_map _ _ _ hi, div_eq_iff (by exact_mod_cast hN.ne'), ← mul_comm, ← inversion (2 ^ m) hN (val x) i hi]
  apply sum_congr rfl
  intro q hq
  rw [val_range_map _ _ _ (mem_range.mp hq)]
  congr 2
  ring

theorem transform_inverse_eq (m : Nat) (h1 : 1 ≤ m) (h2 : m ≤ 31) (x : List ℂ) (hx : x.length = 2 ^ m) :
    (inverse x).bind transform = .ok x := by
  have hN : 0 < 2 ^ m := by positivity
  rw [inverse_eq m h1 h2 x hx]
  simp only [Res.bind]
  rw [transform_eq m h1 h2 _ (by simp)]
  congr 1
  apply list_ext (by simp [hx])
  intro i hi
  simp only [List.length_map, List.length_range] at hi
  rw [val_range_map _ _ _ hi]
  have hN' : ((2 ^ m : ℕ) : ℂ) ≠ 0 := by exact_mod_cast hN.ne'
  have h := inversion (2 ^ m) hN (fun j => starRingEnd ℂ (val x j)) i hi
  have h' := congrArg (starRingEnd ℂ) h
  rw [map_sum, map_mul, conj_conj, map_natCast] at h'
  apply mul_left_cancel₀ hN'
  rw [← h', mul_sum]
  apply sum_congr rfl
  intro q hq
  rw [val_range_map _ _ _ (mem_range.mp hq), map_mul, map_sum, ← tw_neg]
  have : ∀ j : Nat, (starRingEnd ℂ) ((starRingEnd ℂ) (val x j) * tw (2 ^ m) (-(j * q : ℤ))) = val x j * tw (2 ^ m) (j * q : ℤ) := by
    intro j
    rw [map_mul, conj_conj, ← tw_neg, neg_neg]
  simp only [this]
  rw [← mul_assoc, mul_div_cancel₀ _ hN']
  congr 2
  ring

end Verif.Fft
