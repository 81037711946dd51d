import Verif.Waveforms.Process
import Verif.Sampling.Props
import Mathlib.Tactic.Ring
import Mathlib.Tactic.LinearCombination

/-! # Lemmas on averages, shifts and sampling -/

namespace Verif.Waveforms

open Verif.Round (roundFloat)

set_option linter.unusedSectionVars false
set_option linter.unusedSimpArgs false

variable {K : Type} [Field K] [LinearOrder K] [IsStrictOrderedRing K] [FloorRing K]

/-! ## Spans -/

theorem span_cons_cons (a b : K) (l : List K) :
    span (a :: b :: l) = (span (b :: l)).map fun s => (b - a) + s := by
  unfold span
  cases h : (b :: l).getLast? with
  | none => simp at h
  | some z =>
    simp only [List.head?_cons, List.getLast?_cons_cons, h, Option.map_some]
    congr 1; ring

theorem span_some (a : K) (l : List K) : ∃ s, span (a :: l) = some s := by
  unfold span
  cases h : (a :: l).getLast? with
  | none => simp at h
  | some z => exact ⟨_, rfl⟩

theorem span_single (a : K) : span [a] = some 0 := by simp [span]

theorem span_nonneg : ∀ (ts : List K) (s : K), ts.Pairwise (· ≤ ·) → span ts = some s → 0 ≤ s
  | [], s, _, h => by simp [span] at h
  | [a], s, _, h => by rw [span_single] at h; simp at h; exact h.le
  | a :: b :: l, s, hp, h => by
    rw [span_cons_cons] at h
    obtain ⟨s', hs'⟩ := span_some b l
    rw [hs'] at h
    simp only [Option.map_some, Option.some.injEq] at h
    have h1 := span_nonneg (b :: l) s' (List.pairwise_cons.mp hp).2 hs'
    have h2 := (List.pairwise_cons.mp hp).1 b (by simp)
    linarith

/-! ## Averages -/

theorem trapezia_bounds (lo hi : K) : ∀ (data ts : List K) (s : K), ts.length = data.length →
    ts.Pairwise (· ≤ ·) → (∀ d ∈ data, lo ≤ d ∧ d ≤ hi) → span ts = some s →
    ∃ r, trapezia data ts = .ok r ∧ lo * s ≤ r ∧ r ≤ hi * s
  | [], ts, s, hl, _, _, hs => by
    rw [List.length_nil, List.length_eq_zero_iff] at hl; subst hl; simp [span] at hs
  | [d], ts, s, hl, _, _, hs => by
    obtain ⟨a, rfl⟩ := List.length_eq_one_iff.mp (by simpa using hl)
    rw [span_single] at hs
    simp only [Option.some.injEq] at hs; subst hs
    exact ⟨0, rfl, by simp, by simp⟩
  | d0 :: d1 :: ds, [], s, hl, _, _, _ => by simp at hl
  | d0 :: d1 :: ds, [a], s, hl, _, _, _ => by simp at hl
  | d0 :: d1 :: ds, t0 :: t1 :: ts, s, hl, hp, hb, hs => by
    rw [span_cons_cons] at hs
    obtain ⟨s', hs'⟩ := span_some t1 ts
    rw [hs'] at hs
    simp only [Option.map_some, Option.some.injEq] at hs
    obtain ⟨r, hr, h1, h2⟩ := trapezia_bounds lo hi (d1 :: ds) (t1 :: ts) s' (by simpa using hl)
      (List.pairwise_cons.mp hp).2 (fun d hd => hb d (List.mem_cons_of_mem _ hd)) hs'
    refine ⟨(d1 + d0) / 2 * (t1 - t0) + r, by simp only [trapezia, hr, Res.bind], ?_, ?_⟩
    all_goals
      have hd0 := hb d0 (by simp)
      have hd1 := hb d1 (by simp)
      have ht := sub_nonneg.mpr ((List.pairwise_cons.mp hp).1 t1 (by simp))
      subst hs
    · have : lo * (t1 - t0) ≤ (d1 + d0) / 2 * (t1 - t0) := mul_le_mul_of_nonneg_right (by linarith) ht
      linarith
    · have : (d1 + d0) / 2 * (t1 - t0) ≤ hi * (t1 - t0) := mul_le_mul_of_nonneg_right (by linarith) ht
      linarith

theorem trapezia_scaled (k : K) : ∀ (data ts : List K),
    trapezia (data.map (· * k)) ts = (trapezia data ts).bind fun r => .ok (r * k)
  | [], ts => by simp [trapezia, Res.bind]
  | [d], ts => by simp [trapezia, Res.bind]
  | d0 :: d1 :: ds, [] => by simp [trapezia, Res.bind]
  | d0 :: d1 :: ds, [a] => by simp [trapezia, Res.bind]
  | d0 :: d1 :: ds, t0 :: t1 :: ts => by
    have ih := trapezia_scaled k (d1 :: ds) (t1 :: ts)
    simp only [List.map_cons, trapezia] at ih ⊢
    rw [ih]
    cases trapezia (d1 :: ds) (t1 :: ts) <;> simp only [Res.bind, Res.ok.injEq]
    ring

theorem trapezia_raised (c : K) : ∀ (data ts : List K) (s : K), ts.length = data.length → span ts = some s →
    trapezia (data.map (· + c)) ts = (trapezia data ts).bind fun r => .ok (r + c * s)
  | [], ts, s, hl, hs => by
    rw [List.length_nil, List.length_eq_zero_iff] at hl; subst hl; simp [span] at hs
  | [d], ts, s, hl, hs => by
    obtain ⟨a, rfl⟩ := List.length_eq_one_iff.mp (by simpa using hl)
    rw [span_single] at hs
    simp only [Option.some.injEq] at hs; subst hs
    simp [trapezia, Res.bind]
  | d0 :: d1 :: ds, [], s, hl, _ => by simp at hl
  | d0 :: d1 :: ds, [a], s, hl, _ => by simp at hl
  | d0 :: d1 :: ds, t0 :: t1 :: ts, s, hl, hs => by
    rw [span_cons_cons] at hs
    obtain ⟨s', hs'⟩ := span_some t1 ts
    rw [hs'] at hs
    simp only [Option.map_some, Option.some.injEq] at hs
    have ih := trapezia_raised c (d1 :: ds) (t1 :: ts) s' (by simpa using hl) hs'
    simp only [List.map_cons, trapezia] at ih ⊢
    rw [ih]
    cases trapezia (d1 :: ds) (t1 :: ts) <;> simp only [Res.bind, Res.ok.injEq]
    rw [← hs]; ring

theorem trapezia_added : ∀ (a b ts : List K), a.length = b.length →
    trapezia (List.zipWith (· + ·) a b) ts =
      (trapezia a ts).bind fun x => (trapezia b ts).bind fun y => .ok (x + y)
  | [], b, ts, h => by
    rw [List.length_nil, eq_comm, List.length_eq_zero_iff] at h; subst h; simp [trapezia, Res.bind]
  | [x], b, ts, h => by
    obtain ⟨y, rfl⟩ := List.length_eq_one_iff.mp (by simpa using h.symm)
    simp [trapezia, Res.bind]
  | x0 :: x1 :: xs, [], ts, h => by simp at h
  | x0 :: x1 :: xs, [y], ts, h => by simp at h
  | x0 :: x1 :: xs, y0 :: y1 :: ys, [], h => by simp [trapezia, Res.bind]
  | x0 :: x1 :: xs, y0 :: y1 :: ys, [t], h => by simp [trapezia, Res.bind]
  | x0 :: x1 :: xs, y0 :: y1 :: ys, t0 :: t1 :: ts, h => by
    have ih := trapezia_added (x1 :: xs) (y1 :: ys) (t1 :: ts) (by simpa using h)
    simp only [List.zipWith_cons_cons, trapezia] at ih ⊢
    rw [ih]
    cases trapezia (x1 :: xs) (t1 :: ts) <;> simp only [Res.bind]
    cases trapezia (y1 :: ys) (t1 :: ts) <;> simp only [Res.bind, Res.ok.injEq]
    ring

/-! ## Shifts -/

theorem scatter_length (s n : Nat) : ∀ (i : Nat) (ds out : List K), (scatter s n i ds out).length = out.length
  | _, [], _ => rfl
  | i, _ :: ds, out => by
    rw [scatter, scatter_length s n (i + 1) ds]; simp

theorem scatter_other (s n : Nat) : ∀ (i : Nat) (ds out : List K) (j : Nat),
    (∀ p, p < ds.length → (i + p + s) % n ≠ j) → (scatter s n i ds out)[j]? = out[j]?
  | _, [], _, _, _ => rfl
  | i, d :: ds, out, j, h => by
    rw [scatter, scatter_other s n (i + 1) ds _ j]
    · have := h 0 (by simp)
      rw [List.getElem?_set_ne (by simpa using this)]
    · intro p hp
      have := h (p + 1) (by simpa using hp)
      rwa [show i + 1 + p + s = i + (p + 1) + s by omega]

theorem scatter_hit (s n : Nat) : ∀ (i : Nat) (ds out : List K) (p : Nat), out.length = n →
    i + ds.length ≤ n → p < ds.length → (scatter s n i ds out)[(i + p + s) % n]? = ds[p]?
  | _, [], _, _, _, _, hp => by simp at hp
  | i, d :: ds, out, 0, hn, hi, _ => by
    have hpos : 0 < n := by simp at hi; omega
    rw [scatter, scatter_other]
    · simp only [Nat.add_zero, List.getElem?_cons_zero]
      rw [List.getElem?_set_self (by rw [hn]; exact Nat.mod_lt _ hpos)]
    · intro p hp h
      have h1 : (i + 1 + p + s) ≡ (i + 0 + s) [MOD n] := h
      have h2 : 1 + p ≡ 0 [MOD n] := by
        have : (1 + p) + (i + s) ≡ 0 + (i + s) [MOD n] := by
          rw [show 1 + p + (i + s) = i + 1 + p + s by omega, show 0 + (i + s) = i + 0 + s by omega]; exact h1
        exact Nat.ModEq.add_right_cancel' _ this
      have h3 := (Nat.modEq_zero_iff_dvd.mp h2)
      have := Nat.le_of_dvd (by omega) h3
      simp at hi; omega
  | i, d :: ds, out, p + 1, hn, hi, hp => by
    rw [scatter, show i + (p + 1) + s = i + 1 + p + s by omega,
      scatter_hit s n (i + 1) ds _ p (by simpa using hn) (by simp at hi; omega) (by simpa using hp)]
    simp

theorem normalised_eq (k : Int) (n : Nat) (hn : 0 < n) : (normalised k n : Int) = k % n := by
  unfold normalised
  simp only
  have h0 : (0 : Int) < n := by exact_mod_cast hn
  have h1 : 0 ≤ k % n := Int.emod_nonneg k (by omega)
  have h2 : k % n < n := Int.emod_lt_of_pos k h0
  have h4 := Int.lt_tmod_of_pos k h0
  have key : (if k.tmod n < 0 then k.tmod n + n else k.tmod n) = k % n := by
    have h3 : k % n = k.tmod n + ↑(if 0 ≤ k ∨ (n : Int) ∣ k then 0 else Int.natAbs (n : Int)) :=
      Int.emod_eq_tmod
    by_cases hc : 0 ≤ k ∨ (n : Int) ∣ k
    · rw [if_pos hc] at h3
      simp only [Nat.cast_zero, add_zero] at h3
      rw [if_neg (by omega)]; exact h3.symm
    · rw [if_neg hc] at h3
      simp only [Int.natAbs_natCast] at h3
      rw [if_pos (by omega)]; exact h3.symm
  rw [key, Int.toNat_of_nonneg h1]

end Verif.Waveforms
