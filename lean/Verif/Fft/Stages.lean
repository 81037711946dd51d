import Verif.Fft.Bits
import Mathlib.Algebra.BigOperators.Intervals
import Mathlib.Algebra.BigOperators.Ring.Finset
import Mathlib.Tactic.LinearCombination

/-! # What the stages of the transform compute -/

namespace Verif.Fft

set_option linter.unusedSimpArgs false
set_option linter.unusedSectionVars false

open Finset

variable {F : Type} [CommRing F]

/-- A value of a list, zero outside it. -/
def val (x : List F) (i : Nat) : F := (x[i]?).getD 0

theorem val_of {x : List F} {i : Nat} {v : F} (h : x[i]? = some v) : val x i = v := by simp [val, h]

theorem val_get {x : List F} {i : Nat} (h : i < x.length) : x[i]? = some (val x i) := by
  simp [val, List.getElem?_eq_getElem h]

theorem val_set (x : List F) (i j : Nat) (v : F) (h : i < x.length) :
    val (x.set i v) j = if j = i then v else val x j := by
  unfold val
  rw [List.getElem?_set]
  by_cases e : i = j
  · subst e; simp [h]
  · simp [e, Ne.symm e]

theorem list_ext {x y : List F} (hl : x.length = y.length) (h : ∀ i < x.length, val x i = val y i) : x = y := by
  apply List.ext_getElem? 
  intro i
  by_cases hi : i < x.length
  · rw [val_get hi, val_get (hl ▸ hi), h i hi]
  · rw [List.getElem?_eq_none (by omega), List.getElem?_eq_none (by omega)]

/-- Butterflies one after another. -/
def flies (k : Nat) : List (Nat × F) → List F → Res (List F)
  | [], x => .ok x
  | p :: L, x => (butterfly k p.2 p.1 x).bind (flies k L)

theorem flies_append (k : Nat) (L M : List (Nat × F)) (x : List F) :
    flies k (L ++ M) x = (flies k L x).bind (flies k M) := by
  induction L generalizing x with
  | nil => rfl
  | cons p L ih =>
    simp only [List.cons_append, flies]
    cases butterfly k p.2 p.1 x <;> simp [Res.bind, ih]

theorem inner_eq (k : Nat) (T : F) (as : List Nat) (x : List F) : inner k T as x = flies k (as.map fun a => (a, T)) x := by
  induction as generalizing x with
  | nil => rfl
  | cons a as ih =>
    simp only [inner, List.map_cons, flies]
    congr 1
    funext y
    exact ih y

theorem outer_eq (N n k : Nat) (phi : F) (s len : Nat) (x : List F) :
    outer N n k phi (List.range' s len) (phi ^ s) x =
      flies k ((List.range' s len).flatMap fun l => (strides N n l).map fun a => (a, phi ^ l)) x := by
  induction len generalizing s x with
  | zero => rfl
  | succ len ih =>
    rw [List.range'_succ, outer, List.flatMap_cons, flies_append, inner_eq]
    congr 1
    funext y
    rw [← pow_succ, ih]

theorem butterfly_ok (k : Nat) (T : F) (a : Nat) (x : List F) (h : a + k < x.length) :
    butterfly k T a x = .ok ((x.set a (val x a + val x (a + k))).set (a + k) ((val x a - val x (a + k)) * T)) := by
  unfold butterfly
  rw [val_get (show a < x.length by omega), val_get h]

theorem flies_spec (k : Nat) (hk : 0 < k) (L : List (Nat × F)) (x : List F) (hnd : (L.map Prod.fst).Nodup)
    (hlen : ∀ p ∈ L, p.1 + k < x.length) (hdis : ∀ p ∈ L, ∀ q ∈ L, p.1 + k ≠ q.1) :
    ∃ y, flies k L x = .ok y ∧ y.length = x.length ∧
      (∀ p ∈ L, val y p.1 = val x p.1 + val x (p.1 + k) ∧ val y (p.1 + k) = (val x p.1 - val x (p.1 + k)) * p.2) ∧
      ∀ i, (∀ p ∈ L, p.1 ≠ i ∧ p.1 + k ≠ i) → val y i = val x i := by
  induction L generalizing x with
  | nil => exact ⟨x, rfl, rfl, by simp, by simp⟩
  | cons p L ih =>
    have hp := hlen p List.mem_cons_self
    rw [List.map_cons, List.nodup_cons] at hnd
    set x' := (x.set p.1 (val x p.1 + val x (p.1 + k))).set (p.1 + k) ((val x p.1 - val x (p.1 + k)) * p.2) with hx'
    have hl' : x'.length = x.length := by simp [hx']
    have hv : ∀ j, val x' j = if j = p.1 + k then (val x p.1 - val x (p.1 + k)) * p.2
        else if j = p.1 then val x p.1 + val x (p.1 + k) else val x j := by
      intro j
      rw [hx', val_set _ _ _ _ (by simpa using hp), val_set _ _ _ _ (by omega)]
    obtain ⟨y, h1, h2, h3, h4⟩ := ih x' hnd.2 (fun q hq => by rw [hl']; exact hlen q (List.mem_cons_of_mem _ hq))
      (fun q hq r hr => hdis q (List.mem_cons_of_mem _ hq) r (List.mem_cons_of_mem _ hr))
    have hne : ∀ q ∈ L, q.1 ≠ p.1 := fun q hq e => hnd.1 (List.mem_map.mpr ⟨q, hq, e⟩)
    have hout : ∀ q ∈ L, val x' q.1 = val x q.1 ∧ val x' (q.1 + k) = val x (q.1 + k) := by
      intro q hq
      have a1 := hne q hq
      have a2 := hdis p List.mem_cons_self q (List.mem_cons_of_mem _ hq)
      have a3 := hdis q (List.mem_cons_of_mem _ hq) p List.mem_cons_self
      constructor
      · rw [hv, if_neg (Ne.symm a2), if_neg a1]
      · rw [hv, if_neg (by omega), if_neg a3]
    refine ⟨y, ?_, by rw [h2, hl'], ?_, ?_⟩
    · rw [flies, butterfly_ok _ _ _ _ hp]
      exact h1
    · intro q hq
      rcases List.mem_cons.mp hq with rfl | hq
      · constructor
        · rw [h4 q.1 fun r hr => ⟨hne r hr, hdis r (List.mem_cons_of_mem _ hr) q List.mem_cons_self⟩, hv,
            if_neg (by omega), if_pos rfl]
        · rw [h4 (q.1 + k) fun r hr => ⟨fun e => hdis q List.mem_cons_self r (List.mem_cons_of_mem _ hr) e.symm, fun e => hne r hr (by omega)⟩,
            hv, if_pos rfl]
      · obtain ⟨b1, b2⟩ := h3 q hq
        obtain ⟨c1, c2⟩ := hout q hq
        rw [b1, b2, c1, c2]
        exact ⟨rfl, rfl⟩
    · intro i hi
      have hpi := hi p List.mem_cons_self
      rw [h4 i fun q hq => hi q (List.mem_cons_of_mem _ hq), hv, if_neg (Ne.symm hpi.2), if_neg (Ne.symm hpi.1)]

theorem mem_strides {N n l a : Nat} (hn : 0 < n) (hl : l < n) : a ∈ strides N n l ↔ a < N ∧ a % n = l := by
  unfold strides
  rw [List.mem_range']
  constructor
  · rintro ⟨i, hi, rfl⟩
    have h1 : i * n + n ≤ (N - l + n - 1) / n * n := by nlinarith [Nat.succ_le_of_lt hi]
    have h2 := Nat.div_mul_le_self (N - l + n - 1) n
    refine ⟨?_, ?_⟩
    · have : n * i = i * n := Nat.mul_comm _ _
      omega
    · rw [Nat.add_mul_mod_self_left, Nat.mod_eq_of_lt hl]
  · rintro ⟨h1, h2⟩
    refine ⟨a / n, ?_, ?_⟩
    · have h3 := Nat.div_add_mod a n
      rw [Nat.lt_iff_add_one_le, Nat.le_div_iff_mul_le hn]
      have : n * (a / n) = a / n * n := Nat.mul_comm _ _
      have : (a / n + 1) * n = a / n * n + n := by ring
      omega
    · have h3 := Nat.div_add_mod a n
      omega

/-- One stage: sums in the lower halves of the blocks, differences with powers of the root in the upper ones. -/
theorem stage_spec (N n k : Nat) (hk : 0 < k) (hn : n = 2 * k) (hN : n ∣ N) (phi : F) (x : List F) (hx : x.length = N) :
    ∃ y, outer N n k phi (List.range k) 1 x = .ok y ∧ y.length = N ∧
      ∀ a < N, a % n < k → val y a = val x a + val x (a + k) ∧ val y (a + k) = (val x a - val x (a + k)) * phi ^ (a % n) := by
  have hn0 : 0 < n := by omega
  have e : outer N n k phi (List.range k) 1 x =
      flies k ((List.range k).flatMap fun l => (strides N n l).map fun a => (a, phi ^ l)) x := by
    have := outer_eq N n k phi 0 k x
    rwa [pow_zero, ← List.range_eq_range'] at this
  have hmem : ∀ p : Nat × F, p ∈ ((List.range k).flatMap fun l => (strides N n l).map fun a => (a, phi ^ l)) ↔
      p.1 < N ∧ p.1 % n < k ∧ p.2 = phi ^ (p.1 % n) := by
    intro p
    simp only [List.mem_flatMap, List.mem_range, List.mem_map]
    constructor
    · rintro ⟨l, hl, a, ha, rfl⟩
      obtain ⟨h1, h2⟩ := (mem_strides hn0 (by omega)).mp ha
      exact ⟨h1, by rw [h2]; exact hl, by rw [h2]⟩
    · rintro ⟨h1, h2, h3⟩
      exact ⟨p.1 % n, h2, p.1, (mem_strides hn0 (by omega)).mpr ⟨h1, rfl⟩, by rw [← h3]⟩
  have hblock : ∀ a, a < N → a % n < k → a + k < N := by
    intro a ha hm
    obtain ⟨q, rfl⟩ := hN
    have h3 := Nat.div_add_mod a n
    have h4 : a / n < q := Nat.div_lt_of_lt_mul ha
    have h5 : n * (a / n) + n ≤ n * q := by nlinarith
    omega
  have hmod : ∀ a, a % n < k → (a + k) % n = a % n + k := by
    intro a hm
    rw [Nat.add_mod, Nat.mod_eq_of_lt (show k < n by omega), Nat.mod_eq_of_lt (by omega)]
  obtain ⟨y, h1, h2, h3, _⟩ := flies_spec k hk ((List.range k).flatMap fun l => (strides N n l).map fun a => (a, phi ^ l)) x
    (by
      rw [List.map_flatMap]
      rw [List.nodup_flatMap]
      constructor
      · intro l _
        simp only [List.map_map, Function.comp_def, List.map_id']
        exact List.nodup_range' (step := n) (h := hn0)
      · refine List.Pairwise.imp_of_mem ?_ (List.pairwise_lt_range (n := k))
        intro a b ha hb hab
        simp only [Function.onFun, List.map_map, Function.comp_def, List.map_id']
        rw [List.disjoint_left]
        intro i hi hi'
        have e1 := ((mem_strides hn0 (by have := List.mem_range.mp ha; omega)).mp hi).2
        have e2 := ((mem_strides hn0 (by have := List.mem_range.mp hb; omega)).mp hi').2
        omega)
    (fun p hp => by rw [hx]; exact hblock _ ((hmem p).mp hp).1 ((hmem p).mp hp).2.1)
    (fun p hp q hq e => by
      have a1 := ((hmem p).mp hp).2.1
      have a2 := ((hmem q).mp hq).2.1
      have := hmod p.1 a1
      rw [e] at this
      omega)
  refine ⟨y, by rw [e, h1], by rw [h2, hx], ?_⟩
  intro a ha hm
  exact h3 (a, phi ^ (a % n)) ((hmem _).mpr ⟨ha, hm, rfl⟩)

/-! ## Transforms of blocks -/

/-- The transform of the `n` values from `o` on. -/
def block (phi : F) (n : Nat) (x : List F) (o q : Nat) : F := ∑ j ∈ range n, val x (o + j) * phi ^ (j * q)

theorem block_even (phi : F) (k : Nat) (hphi : phi ^ k = -1) (x y : List F) (o q : Nat)
    (h : ∀ j < k, val y (o + j) = val x (o + j) + val x (o + j + k)) :
    block phi (2 * k) x o (2 * q) = block (phi * phi) k y o q := by
  unfold block
  rw [two_mul k, sum_range_add, ← sum_add_distrib]
  apply sum_congr rfl
  intro j hj
  have hj' := mem_range.mp hj
  have e1 : phi ^ (j * (2 * q)) = (phi * phi) ^ (j * q) := by rw [← sq, ← pow_mul]; congr 1; ring
  have e2 : phi ^ ((k + j) * (2 * q)) = (phi * phi) ^ (j * q) := by
    have : (k + j) * (2 * q) = k * (2 * q) + j * (2 * q) := by ring
    rw [this, pow_add, e1, pow_mul, hphi, pow_mul]
    simp
  rw [e1, e2, h j hj', show o + (k + j) = o + j + k by omega]
  ring

theorem block_odd (phi : F) (k : Nat) (hphi : phi ^ k = -1) (x y : List F) (o q : Nat)
    (h : ∀ j < k, val y (o + k + j) = (val x (o + j) - val x (o + j + k)) * phi ^ j) :
    block phi (2 * k) x o (2 * q + 1) = block (phi * phi) k y (o + k) q := by
  unfold block
  rw [two_mul k, sum_range_add, ← sum_add_distrib]
  apply sum_congr rfl
  intro j hj
  have hj' := mem_range.mp hj
  have e1 : phi ^ (j * (2 * q + 1)) = (phi * phi) ^ (j * q) * phi ^ j := by
    rw [← sq, ← pow_mul, ← pow_add]; congr 1; ring
  have e2 : phi ^ ((k + j) * (2 * q + 1)) = -((phi * phi) ^ (j * q) * phi ^ j) := by
    have : (k + j) * (2 * q + 1) = k * (2 * q) + k + j * (2 * q + 1) := by ring
    rw [this, pow_add, pow_add, e1, pow_mul, hphi, pow_mul]
    simp
  rw [e1, e2, h j hj', show o + (k + j) = o + j + k by omega]
  ring

/-- All the stages: every block of `2 ^ s` holds its transform, with bits reversed. -/
theorem stages_spec (N : Nat) (s : Nat) (phi : F) (x : List F) (hN : 2 ^ s ∣ N) (hx : x.length = N)
    (hphi : phi ^ (2 ^ s) = -1) :
    ∃ y, stages N (2 ^ s) phi x = .ok y ∧ y.length = N ∧
      ∀ b r, b * 2 ^ s + r < N → r < 2 ^ s → val y (b * 2 ^ s + r) = block (phi * phi) (2 ^ s) x (b * 2 ^ s) (rev s r) := by
  induction s generalizing phi x with
  | zero =>
    refine ⟨x, by rw [stages]; simp, hx, ?_⟩
    intro b r _ hr
    simp only [pow_zero, Nat.lt_one_iff] at hr
    subst hr
    simp [block, rev]
  | succ s ih =>
    have hk : 0 < 2 ^ s := by positivity
    have hn : 2 ^ (s + 1) = 2 * 2 ^ s := by rw [pow_succ]; ring
    have hphi' : (phi * phi) ^ (2 ^ s) = -1 := by rw [← sq, ← pow_mul, ← hn, hphi]
    obtain ⟨z, hz, hzl, hzv⟩ := stage_spec N (2 ^ (s + 1)) (2 ^ s) hk hn hN (phi * phi) x hx
    obtain ⟨y, hy, hyl, hyv⟩ := ih (phi * phi) z (Dvd.dvd.trans ⟨2, by rw [hn]; ring⟩ hN) hzl hphi'
    refine ⟨y, ?_, hyl, ?_⟩
    · rw [stages, if_pos (by rw [hn]; omega), hn, Nat.mul_div_cancel_left _ (by norm_num), ← hn, hz]
      exact hy
    · intro b r hbr hr
      have hoff : ∀ j < 2 ^ s, b * 2 ^ (s + 1) + j < N ∧ (b * 2 ^ (s + 1) + j) % 2 ^ (s + 1) = j := by
        intro j hj
        constructor
        · obtain ⟨q, rfl⟩ := hN
          have : b < q := by
            by_contra h
            have : 2 ^ (s + 1) * q ≤ b * 2 ^ (s + 1) := by nlinarith [Nat.le_of_not_lt h]
            omega
          have : b * 2 ^ (s + 1) + 2 ^ (s + 1) ≤ 2 ^ (s + 1) * q := by nlinarith
          omega
        · rw [Nat.add_comm, Nat.add_mul_mod_self_right, Nat.mod_eq_of_lt]
          omega
      by_cases hlow : r < 2 ^ s
      · have hv := hyv (2 * b) r (by rw [show 2 * b * 2 ^ s = b * 2 ^ (s + 1) by rw [hn]; ring]; exact hbr) hlow
        rw [show 2 * b * 2 ^ s = b * 2 ^ (s + 1) by rw [hn]; ring] at hv
        rw [hv, rev_succ_low s r hlow, hn, ← hn]
        rw [hn, block_even (phi * phi) (2 ^ s) hphi' x z _ _ ?_]
        intro j hj
        rw [← hn]
        obtain ⟨h1, h2⟩ := hoff j hj
        exact (hzv _ h1 (by rw [h2]; exact hj)).1
      · obtain ⟨r', rfl⟩ : ∃ r', r = 2 ^ s + r' := ⟨r - 2 ^ s, by omega⟩
        have hr' : r' < 2 ^ s := by omega
        have eo : (2 * b + 1) * 2 ^ s = b * 2 ^ (s + 1) + 2 ^ s := by rw [hn]; ring
        have hv := hyv (2 * b + 1) r' (by rw [eo]; omega) hr'
        rw [eo] at hv
        rw [← Nat.add_assoc, hv, rev_succ_high s r' hr']
        rw [hn, block_odd (phi * phi) (2 ^ s) hphi' x z _ _ ?_]
        intro j hj
        rw [← hn]
        obtain ⟨h1, h2⟩ := hoff j hj
        have := (hzv _ h1 (by rw [h2]; exact hj)).2
        rw [h2] at this
        rw [← this]
        congr 1
        omega

/-! ## Decimation -/

theorem exchange_ok (a b : Nat) (x : List F) (h : b < x.length) (hab : b > a) :
    exchange a b x = .ok ((x.set a (val x b)).set b (val x a)) := by
  unfold exchange
  rw [if_pos hab, val_get (show a < x.length by omega), val_get h]

/-- Exchanging every index with its larger partner applies an involution. -/
theorem decimate_spec (m : Nat) (f : Nat → Nat) (N : Nat) (hp : ∀ a < N, partner m a = f a) (hf : ∀ a < N, f a < N)
    (hff : ∀ a < N, f (f a) = a) (x : List F) (hx : x.length = N) (n : Nat) (hn : n ≤ N) :
    ∃ y, decimate m (List.range n) x = .ok y ∧ y.length = N ∧
      ∀ i < N, val y i = if i < n ∨ f i < n then val x (f i) else val x i := by
  have happ : ∀ (L M : List Nat) (z : List F), decimate m (L ++ M) z = (decimate m L z).bind (decimate m M) := by
    intro L
    induction L with
    | nil => intro M z; rfl
    | cons a L ih =>
      intro M z
      simp only [List.cons_append, decimate]
      cases exchange a (partner m a) z <;> simp [Res.bind, ih]
  induction n with
  | zero => exact ⟨x, rfl, hx, by simp⟩
  | succ n ih =>
    obtain ⟨y, h1, h2, h3⟩ := ih (by omega)
    have hnN : n < N := by omega
    rw [List.range_succ, happ, h1]
    simp only [Res.bind, decimate]
    rw [hp n hnN]
    by_cases hgt : f n > n
    · rw [exchange_ok _ _ _ (by rw [h2]; exact hf n hnN) hgt]
      refine ⟨_, rfl, by simp [h2], ?_⟩
      intro i hi
      rw [val_set _ _ _ _ (by simp [h2]; exact hf n hnN), val_set _ _ _ _ (by omega)]
      have hyn : val y n = val x n := by
        rw [h3 n hnN, if_neg (by omega)]
      have hyf : val y (f n) = val x (f n) := by
        rw [h3 _ (hf n hnN), if_neg (by rw [hff n hnN]; omega)]
      by_cases e1 : i = f n
      · rw [if_pos e1, hyn, e1, hff n hnN, if_pos (by omega)]
      · rw [if_neg e1]
        by_cases e2 : i = n
        · rw [if_pos e2, hyf, e2, if_pos (by omega)]
        · rw [if_neg e2, h3 i hi]
          have : f i ≠ n := fun e => e1 (by rw [← e, hff i hi])
          by_cases c : i < n ∨ f i < n
          · rw [if_pos c, if_pos (by omega)]
          · rw [if_neg c, if_neg (by omega)]
    · refine ⟨y, by unfold exchange; rw [if_neg hgt], h2, ?_⟩
      intro i hi
      rw [h3 i hi]
      by_cases c : i < n ∨ f i < n
      · rw [if_pos c, if_pos (by omega)]
      · rw [if_neg c]
        by_cases e : i = n
        · subst e
          have : f i = i := by
            have := hff i hi
            omega
          rw [if_pos (by omega), this]
        · by_cases e2 : f i = n
          · have e3 : f n = i := by rw [← e2, hff i hi]
            exfalso
            omega
          · rw [if_neg (by omega)]

end Verif.Fft
