import Verif.Filters.Choke
import Mathlib.Algebra.Order.Field.Rat
import Mathlib.Algebra.Order.BigOperators.Group.List
import Mathlib.Tactic.Linarith
import Mathlib.Tactic.NormNum
import Mathlib.Tactic.Positivity
import Mathlib.Tactic.FieldSimp
import Mathlib.Tactic.Ring

/-!
# C191: the turns of a minimum impedance
-/

set_option linter.unusedSectionVars false
set_option linter.unusedSimpArgs false

namespace Verif.Filters.Choke

variable {K : Type} [Field K] [LinearOrder K] [IsStrictOrderedRing K]

/-- With these measures every requirement is met. -/
def Meets (probe : Need K → Probe K) (needs : List (Need K)) : Prop := ∀ d ∈ needs, ∃ z : K, probe d = .magnitude z ∧ d.magnitude ≤ z

/-- What is left over the requirements. -/
def leftOver (probe : Need K → Probe K) : List (Need K) → K
  | [] => 0
  | d :: rest => (match probe d with | .magnitude z => z - d.magnitude | _ => 0) + leftOver probe rest

theorem validate_spec (probe : Need K → Probe K) : ∀ (needs : List (Need K)) (m : Bool) (e w : K) (e' w' : K) (m' : Bool),
    validate probe needs m e w = some (m', e', w') → (m' = true ↔ m = true ∧ Meets probe needs) ∧ (m' = true → e' = e + leftOver probe needs) ∧
      w' ≤ w
  | [], m, e, w, e', w', m', h => by
    simp only [validate, Option.some.injEq, Prod.mk.injEq] at h
    obtain ⟨rfl, rfl, rfl⟩ := h
    simp [Meets, leftOver]
  | d :: rest, m, e, w, e', w', m', h => by
    simp only [validate] at h
    cases hp : probe d with
    | missing => rw [hp] at h; simp at h
    | notFinite => rw [hp] at h; simp at h
    | magnitude z =>
      rw [hp] at h
      simp only at h
      by_cases hz : z < d.magnitude
      · rw [if_pos hz] at h
        obtain ⟨h1, h2, h3⟩ := validate_spec probe rest _ _ _ _ _ _ h
        have hm : m' = false := by
          cases m' with
          | false => rfl
          | true => exact absurd (h1.mp rfl).1 (by simp)
        subst hm
        refine ⟨?_, by simp, le_trans h3 (min_le_left _ _)⟩
        simp only [Bool.false_eq_true, false_iff, not_and]
        intro _ hM
        obtain ⟨z', hz', hle⟩ := hM d (by simp)
        rw [hp] at hz'
        cases hz'
        linarith
      · rw [if_neg hz] at h
        obtain ⟨h1, h2, h3⟩ := validate_spec probe rest _ _ _ _ _ _ h
        refine ⟨?_, ?_, h3⟩
        · rw [h1]
          constructor
          · rintro ⟨hm, hM⟩
            refine ⟨hm, fun d' hd' => ?_⟩
            rcases List.mem_cons.mp hd' with rfl | hd'
            · exact ⟨z, hp, not_lt.mp hz⟩
            · exact hM d' hd'
          · rintro ⟨hm, hM⟩
            exact ⟨hm, fun d' hd' => hM d' (List.mem_cons_of_mem _ hd')⟩
        · intro hm
          rw [h2 hm, leftOver, hp]
          simp only
          ring

theorem measure_spec (probe : Need K → Probe K) : ∀ (needs : List (Need K)) (m : Bool) (e e' : K), measure probe needs m e = (true, true, e') →
    m = true ∧ Meets probe needs ∧ e' = e + leftOver probe needs
  | [], m, e, e', h => by
    simp only [measure, Prod.mk.injEq, true_and] at h
    obtain ⟨rfl, rfl⟩ := h
    simp [Meets, leftOver]
  | d :: rest, m, e, e', h => by
    simp only [measure] at h
    cases hp : probe d with
    | missing =>
      rw [hp] at h
      exact absurd (measure_spec probe rest _ _ _ h).1 (by simp)
    | notFinite =>
      rw [hp] at h
      exact absurd (measure_spec probe rest _ _ _ h).1 (by simp)
    | magnitude z =>
      rw [hp] at h
      simp only at h
      by_cases hz : z < d.magnitude
      · rw [if_pos hz] at h; simp at h
      · rw [if_neg hz] at h
        obtain ⟨h1, h2, h3⟩ := measure_spec probe rest _ _ _ h
        refine ⟨h1, ?_, ?_⟩
        · intro d' hd'
          rcases List.mem_cons.mp hd' with rfl | hd'
          · exact ⟨z, hp, not_lt.mp hz⟩
          · exact h2 d' hd'
        · rw [h3, leftOver, hp]; simp only; ring

theorem leftOver_nonneg {probe : Need K → Probe K} : ∀ {needs : List (Need K)}, Meets probe needs → 0 ≤ leftOver probe needs
  | [], _ => le_refl _
  | d :: rest, h => by
    obtain ⟨z, hz, hle⟩ := h d (by simp)
    have := leftOver_nonneg (needs := rest) (fun d' hd' => h d' (List.mem_cons_of_mem _ hd'))
    rw [leftOver, hz]
    simp only
    linarith

theorem rebump_kept {b : Bench K} : ∀ (left n : ℕ) {s : Score K} {c : Option ℕ}, ¬ tooMany b n → 1 ≤ n → rebump b left n = .answer ⟨true, s⟩ c →
    ∃ m : ℕ, c = some m ∧ n ≤ m ∧ ¬ tooMany b m ∧ Meets (b.probe m) b.needs ∧ s = .num (leftOver (b.probe m) b.needs)
  | 0, n, s, c, _, _, h => by simp [rebump, rejected] at h
  | left + 1, n, s, c, ht, hn, h => by
    simp only [rebump] at h
    cases hv : validate (b.probe n) b.needs true 0 1 with
    | none => rw [hv] at h; simp [rejected] at h
    | some r =>
      obtain ⟨m', e', w'⟩ := r
      obtain ⟨h1, h2, _⟩ := validate_spec _ _ _ _ _ _ _ _ hv
      rw [hv] at h
      cases m' with
      | true =>
        simp only [Verdict.answer.injEq, Answer.mk.injEq, true_and] at h
        obtain ⟨rfl, rfl⟩ := h
        refine ⟨n, rfl, le_refl _, ht, (h1.mp rfl).2, ?_⟩
        rw [h2 rfl, zero_add]
      | false =>
        simp only at h
        split_ifs at h with hw ht'
        · simp [rejected] at h
        · obtain ⟨m, hm, hle, hrest⟩ := rebump_kept left _ ht' (by omega) h
          exact ⟨m, hm, by omega, hrest⟩

theorem steps_kept {b : Bench K} {share : K} : ∀ (left n : ℕ) (coil : Option ℕ) {s : Score K} {c : Option ℕ}, steps b share left n coil = .answer ⟨true, s⟩ c →
    ∃ m : ℕ, c = some m ∧ n ≤ m ∧ m < n + left ∧ ¬ tooMany b m ∧ Meets (b.later m) b.needs ∧ (∀ d ∈ b.needs, d.frequency ≤ share * b.resonance m) ∧
      s = .num (leftOver (b.later m) b.needs) ∧ ∀ k, n ≤ k → k < m → ¬ Meets (b.later k) b.needs
  | 0, n, coil, s, c, h => by simp [steps, rejected] at h
  | left + 1, n, coil, s, c, h => by
    simp only [steps] at h
    split_ifs at h with ht hf
    · simp [rejected] at h
    · simp [rejected] at h
    · cases hm : measure (b.later n) b.needs true 0 with
      | mk v r =>
        obtain ⟨mat, e⟩ := r
        rw [hm] at h
        cases mat with
        | false => cases v <;> simp [rejected] at h
        | true =>
          cases v with
          | true =>
            simp only [Verdict.answer.injEq, Answer.mk.injEq, true_and] at h
            obtain ⟨rfl, rfl⟩ := h
            obtain ⟨_, h2, h3⟩ := measure_spec _ _ _ _ _ hm
            refine ⟨n, rfl, le_refl _, by omega, ht, h2, ?_, by rw [h3, zero_add], by intro k h1 h2; omega⟩
            intro d hd
            simp only [List.any_eq_true, decide_eq_true_eq, not_exists, not_and, not_lt] at hf
            exact hf d hd
          | false =>
            obtain ⟨m, hm1, hm2, hm3, hm4, hm5, hm6, hm7, hm8⟩ := steps_kept left (n + 1) (some n) h
            refine ⟨m, hm1, by omega, by omega, hm4, hm5, hm6, hm7, ?_⟩
            intro k hk1 hk2
            rcases Nat.eq_or_lt_of_le hk1 with rfl | hk
            · intro hM
              have hall : ∀ (needs : List (Need K)) (mm : Bool) (ee : K), Meets (b.later n) needs → (measure (b.later n) needs mm ee).1 = true := by
                intro needs
                induction needs with
                | nil => intro mm ee _; rfl
                | cons d rest ih =>
                  intro mm ee hM
                  obtain ⟨z, hz, hle⟩ := hM d (by simp)
                  simp only [measure, hz]
                  rw [if_neg (not_lt.mpr hle)]
                  exact ih _ _ (fun d' hd' => hM d' (List.mem_cons_of_mem _ hd'))
              have := hall b.needs true 0 hM
              rw [hm] at this
              simp at this
            · exact hm8 k (by omega) hk2

theorem jump_cons {b : Bench K} {d : Need K} {rest : List (Need K)} {n m : ℕ} (h : jump b (d :: rest) n = .value (some m)) :
    ∃ z : K, b.unit d = .magnitude z ∧ 0 < z ∧ 0 ≤ d.magnitude ∧ jump b rest (max n (max 1 (b.ceilSqrt (d.magnitude / z)))) = .value (some m) := by
  simp only [jump] at h
  cases hu : b.unit d with
  | missing => rw [hu] at h; simp at h
  | notFinite => rw [hu] at h; simp at h
  | magnitude z =>
    rw [hu] at h
    simp only at h
    by_cases hz : z ≤ 0
    · rw [if_pos hz] at h; simp at h
    · rw [if_neg hz] at h
      by_cases hd : d.magnitude < 0
      · rw [if_pos hd] at h; simp at h
      · rw [if_neg hd] at h
        exact ⟨z, rfl, not_le.mp hz, not_lt.mp hd, h⟩

theorem jump_ge {b : Bench K} : ∀ (needs : List (Need K)) (n m : ℕ), jump b needs n = .value (some m) → n ≤ m
  | [], n, m, h => by simp [jump] at h; omega
  | d :: rest, n, m, h => by
    obtain ⟨z, _, _, _, h⟩ := jump_cons h
    exact le_trans (le_max_left _ _) (jump_ge rest _ m h)

/-- C191. A magnetic kept by the filter of minimum impedance is left with at least one turn that fits in its window, with which the impedance
measured meets every requirement; its score is what is left over, which is not negative. -/
theorem choke_kept_meets (b : Bench K) (share : K) (passes tries : ℕ) {s : Score K} {c : Option ℕ}
    (h : filter b share passes tries = .answer ⟨true, s⟩ c) :
    ∃ n : ℕ, c = some n ∧ 1 ≤ n ∧ (n : K) * b.turn < b.room ∧
      ((Meets (b.probe n) b.needs ∧ s = .num (leftOver (b.probe n) b.needs) ∧ 0 ≤ leftOver (b.probe n) b.needs) ∨
       (Meets (b.later n) b.needs ∧ s = .num (leftOver (b.later n) b.needs) ∧ 0 ≤ leftOver (b.later n) b.needs)) := by
  unfold filter at h
  cases hj : jump b b.needs 1 with
  | throws => rw [hj] at h; simp at h
  | undefined => rw [hj] at h; simp at h
  | value o =>
    rw [hj] at h
    cases o with
    | some n =>
      simp only at h
      split_ifs at h with ht
      · simp [rejected] at h
      · have h1 := jump_ge _ _ _ hj
        obtain ⟨m, rfl, hle, ht', hM, hs⟩ := rebump_kept passes n ht h1 h
        exact ⟨m, rfl, by omega, not_le.mp ht', Or.inl ⟨hM, hs, leftOver_nonneg hM⟩⟩
    | none =>
      obtain ⟨m, rfl, hle, _, ht', hM, _, hs, _⟩ := steps_kept tries 1 none h
      exact ⟨m, rfl, hle, not_le.mp ht', Or.inr ⟨hM, hs, leftOver_nonneg hM⟩⟩

/-- C191. When the search goes by steps, what it keeps is the smallest number of turns that meets the requirements, it is one of the first `tries`,
and every frequency is under the share of the self resonance. -/
theorem choke_by_steps (b : Bench K) (share : K) (passes tries : ℕ) (hj : jump b b.needs 1 = .value none) {s : Score K} {c : Option ℕ}
    (h : filter b share passes tries = .answer ⟨true, s⟩ c) :
    ∃ n : ℕ, c = some n ∧ n ≤ tries ∧ (∀ d ∈ b.needs, d.frequency ≤ share * b.resonance n) ∧ ∀ k, 1 ≤ k → k < n → ¬ Meets (b.later k) b.needs := by
  unfold filter at h
  rw [hj] at h
  obtain ⟨m, rfl, _, hlt, _, _, hf, _, hmin⟩ := steps_kept tries 1 none h
  exact ⟨m, rfl, by omega, hf, hmin⟩

theorem jump_le {b : Bench K} (hc : ∀ (x : K) (n : ℕ), x ≤ (n : K) * n → b.ceilSqrt x ≤ n) :
    ∀ (needs : List (Need K)) (n m k : ℕ), jump b needs n = .value (some m) → n ≤ k → 1 ≤ k →
      (∀ d ∈ needs, ∀ z : K, b.unit d = .magnitude z → d.magnitude ≤ z * (k * k)) → m ≤ k
  | [], n, m, k, h, hn, _, _ => by simp [jump] at h; omega
  | d :: rest, n, m, k, h, hn, hk, hall => by
    obtain ⟨z, hu, hz, _, h⟩ := jump_cons h
    refine jump_le hc rest _ m k h ?_ hk (fun d' hd' => hall d' (List.mem_cons_of_mem _ hd'))
    have : b.ceilSqrt (d.magnitude / z) ≤ k := by
      apply hc
      rw [div_le_iff₀ hz]
      linarith [hall d (by simp) z hu]
    omega

theorem jump_enough {b : Bench K} (hc : ∀ x : K, 0 ≤ x → x ≤ (b.ceilSqrt x : K) * b.ceilSqrt x) :
    ∀ (needs : List (Need K)) (n m : ℕ), jump b needs n = .value (some m) →
      ∀ d ∈ needs, ∃ z : K, b.unit d = .magnitude z ∧ 0 < z ∧ d.magnitude ≤ z * (m * m)
  | [], n, m, h, d, hd => by cases hd
  | d :: rest, n, m, h, d', hd' => by
    obtain ⟨z, hu, hz, hneg, h⟩ := jump_cons h
    rcases List.mem_cons.mp hd' with rfl | hd'
    · refine ⟨z, hu, hz, ?_⟩
      have h1 := hc (d'.magnitude / z) (div_nonneg hneg (le_of_lt hz))
      rw [div_le_iff₀ hz] at h1
      have h2 := jump_ge rest _ m h
      have h3 : (b.ceilSqrt (d'.magnitude / z) : K) ≤ m := by
        exact_mod_cast le_trans (le_trans (le_max_right 1 _) (le_max_right n _)) h2
      have h4 : (b.ceilSqrt (d'.magnitude / z) : K) * b.ceilSqrt (d'.magnitude / z) ≤ (m : K) * m := by
        have h0 : (0 : K) ≤ b.ceilSqrt (d'.magnitude / z) := by positivity
        exact mul_le_mul h3 h3 h0 (le_trans h0 h3)
      have h5 := mul_le_mul_of_nonneg_right h4 (le_of_lt hz)
      linarith [mul_comm ((m : K) * m) z]
    · exact jump_enough hc rest _ m h d' hd'

/-- C191. With an impedance that grows with the square of the turns, as that of a material whose permeability does not fall with the bias, the first
jump is exact: when there is room for them, the turns are the fewest that meet every requirement. -/
theorem choke_square_law (b : Bench K) (share : K) (passes tries : ℕ) (hp : 0 < passes)
    (hc1 : ∀ x : K, 0 ≤ x → x ≤ (b.ceilSqrt x : K) * b.ceilSqrt x) (hc2 : ∀ (x : K) (n : ℕ), x ≤ (n : K) * n → b.ceilSqrt x ≤ n)
    (hsq : ∀ d ∈ b.needs, ∃ z : K, 0 < z ∧ b.unit d = .magnitude z ∧ ∀ n : ℕ, b.probe n d = .magnitude (z * (n * n)))
    (hpos : ∀ d ∈ b.needs, 0 ≤ d.magnitude) (n : ℕ) (hn : 1 ≤ n) (hroom : (n : K) * b.turn < b.room) (hmeets : Meets (b.probe n) b.needs)
    (hleast : ∀ k, 1 ≤ k → k < n → ¬ Meets (b.probe k) b.needs) :
    filter b share passes tries = .answer ⟨true, .num (leftOver (b.probe n) b.needs)⟩ (some n) := by
  have hsome : ∀ (needs : List (Need K)) (m : ℕ), (∀ d ∈ needs, ∃ z : K, 0 < z ∧ b.unit d = .magnitude z) → (∀ d ∈ needs, 0 ≤ d.magnitude) →
      ∃ m', jump b needs m = .value (some m') := by
    intro needs
    induction needs with
    | nil => intro m _ _; exact ⟨m, rfl⟩
    | cons d rest ih =>
      intro m h1 h2
      obtain ⟨z, hz, hu⟩ := h1 d (by simp)
      simp only [jump, hu]
      rw [if_neg (not_le.mpr hz), if_neg (not_lt.mpr (h2 d (by simp)))]
      exact ih _ (fun d' hd' => h1 d' (List.mem_cons_of_mem _ hd')) (fun d' hd' => h2 d' (List.mem_cons_of_mem _ hd'))
  obtain ⟨m, hm⟩ := hsome b.needs 1 (fun d hd => by obtain ⟨z, h1, h2, _⟩ := hsq d hd; exact ⟨z, h1, h2⟩) hpos
  have hmn : m = n := by
    have hle : m ≤ n := by
      refine jump_le hc2 b.needs 1 m n hm hn hn ?_
      intro d hd z hz
      obtain ⟨z', hz', hd1⟩ := hmeets d hd
      obtain ⟨z'', _, hu, hpn⟩ := hsq d hd
      rw [hz] at hu; cases hu
      rw [hpn n] at hz'; cases hz'
      exact hd1
    by_contra hne
    refine hleast m (jump_ge _ _ _ hm) (by omega) ?_
    intro d hd
    obtain ⟨z, hz, _, hle'⟩ := jump_enough hc1 b.needs 1 m hm d hd
    obtain ⟨z'', _, hu, hpn⟩ := hsq d hd
    rw [hz] at hu; cases hu
    exact ⟨_, hpn m, hle'⟩
  subst hmn
  obtain ⟨p, rfl⟩ : ∃ p, passes = p + 1 := ⟨passes - 1, by omega⟩
  unfold filter
  rw [hm]
  simp only
  rw [if_neg (show ¬ tooMany b m from not_le.mpr hroom)]
  simp only [rebump]
  have hvs : ∀ (needs : List (Need K)) (e w : K), Meets (b.probe m) needs →
      validate (b.probe m) needs true e w = some (true, e + leftOver (b.probe m) needs, w) := by
    intro needs
    induction needs with
    | nil => intro e w _; simp [validate, leftOver]
    | cons d rest ih =>
      intro e w hM
      obtain ⟨z, hz, hle⟩ := hM d (by simp)
      simp only [validate, hz]
      rw [if_neg (not_lt.mpr hle), ih _ _ (fun d' hd' => hM d' (List.mem_cons_of_mem _ hd')), leftOver, hz]
      simp only [Option.some.injEq, Prod.mk.injEq, true_and, and_true]
      ring
  rw [hvs b.needs 0 1 hmeets]
  simp

/-- The smallest number under a thousand whose square is not under `q`. -/
def rootUp (q : ℚ) : ℕ := ((List.range 1000).find? (fun n : ℕ => decide (q ≤ (n : ℚ) * n))).getD 1000

/-- A choke of 1000 Ω at 150 kHz. -/
def choke (law : ℕ → ℚ) : Bench ℚ where
  needs := [⟨150000, 1000⟩]
  unit := fun _ => .magnitude (law 1)
  probe := fun n _ => .magnitude (law n)
  later := fun n _ => .magnitude (law n)
  resonance := fun _ => 10000000
  room := 100
  turn := 1 / 2
  ceilSqrt := rootUp

/-- The hypotheses of the square law are met: 10 Ω with one turn, and ten turns. -/
example : filter (choke fun n => 10 * (n * n)) (1 / 4) 5 100 = .answer ⟨true, .num 0⟩ (some 10) := by decide +kernel

/-- C191, the claim is false of the code: the search gives up a magnetic that meets. Here the impedance grows as the turns, the slope the code itself gives
for deep saturation. A hundred turns meet and fit, but after five passes the search is at 94 turns, which it does not measure, and the
magnetic is rejected. -/
theorem choke_gives_up_counterexample :
    filter (choke fun n => 10 * n) (1 / 4) 5 100 = .answer rejected (some 94) ∧ Meets ((choke fun n => 10 * n).probe 100) (choke fun n => 10 * n).needs ∧
    (100 : ℚ) * (choke fun n => 10 * n).turn < (choke fun n => 10 * n).room := by
  refine ⟨by decide +kernel, ?_, by norm_num [choke]⟩
  intro d hd
  simp only [choke, List.mem_singleton] at hd
  subst hd
  exact ⟨1000, by norm_num [choke], le_refl _⟩

/-- C191. With an empty list of requirements one turn is kept, when it fits. -/
theorem choke_nothing_required (b : Bench K) (share : K) (passes tries : ℕ) (hp : 0 < passes) (hn : b.needs = []) (hr : b.turn < b.room) :
    filter b share passes tries = .answer ⟨true, .num 0⟩ (some 1) := by
  obtain ⟨p, rfl⟩ : ∃ p, passes = p + 1 := ⟨passes - 1, by omega⟩
  unfold filter
  simp only [hn, jump]
  rw [if_neg (by unfold tooMany; push Not; simpa using hr)]
  simp [rebump, hn, validate]

end Verif.Filters.Choke
