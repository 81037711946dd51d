import Verif.NumberTurns.Model
import Verif.Requirements.Props

/-! # Property C07: every turns combination offered satisfies the requirements -/

namespace Verif.NumberTurns

open Verif.Requirements

set_option linter.unusedSimpArgs false

/-- Specification for one secondary with `n` turns: at least one turn, the realised ratio is in the window of
the requirement, and within 2 % of the nominal when the requirement is only a nominal. -/
def SecondaryOk (p : ℕ) (w : Dim ℚ × ℚ) (n : ℕ) : Prop :=
  1 ≤ n ∧ InWindow (1 / 4) w.1 ((p : ℚ) / n) ∧
  (w.1.minimum = none → w.1.maximum = none → |(p : ℚ) / n - w.2| ≤ 2 / 100 * w.2)

/-- Specification of a good combination. -/
def Good (ws : List (Dim ℚ × ℚ)) (multiple : ℕ) (c : List ℕ) : Prop :=
  ∃ p secs, c = p :: secs ∧ 1 ≤ p ∧ multiple ∣ p ∧ List.Forall₂ (SecondaryOk p) ws secs

/-- Primary turns of a combination. -/
def primary (c : List ℕ) : ℕ := match c with | [] => 0 | p :: _ => p

theorem bump_spec (m : ℕ) (hm : 0 < m) : ∀ fuel p, m - p % m ≤ fuel →
    p ≤ bump m fuel p ∧ m ∣ bump m fuel p := by
  intro fuel
  induction fuel with
  | zero =>
    intro p h
    have := Nat.mod_lt p hm
    omega
  | succ fuel ih =>
    intro p h
    simp only [bump]
    split
    · rename_i hne
      by_cases hw : p % m + 1 = m
      · have h0 : (p + 1) % m = 0 := by
          rw [Nat.add_mod]
          by_cases h1 : m = 1
          · subst h1; simp [Nat.mod_one]
          · have : 1 % m = 1 := Nat.mod_eq_of_lt (by omega)
            rw [this, hw, Nat.mod_self]
        have : bump m fuel (p + 1) = p + 1 := by
          cases fuel with
          | zero => rfl
          | succ f => simp [bump, h0]
        rw [this]
        exact ⟨by omega, Nat.dvd_of_mod_eq_zero h0⟩
      · have h1 : (p + 1) % m = p % m + 1 := by
          have hlt := Nat.mod_lt p hm
          rw [Nat.add_mod]
          by_cases h1 : m = 1
          · subst h1; omega
          · have : 1 % m = 1 := Nat.mod_eq_of_lt (by omega)
            rw [this]; exact Nat.mod_eq_of_lt (by omega)
        have := ih (p + 1) (by omega)
        exact ⟨by omega, this.2⟩
    · rename_i h0
      exact ⟨le_refl _, Nat.dvd_of_mod_eq_zero (by omega)⟩

theorem secondaries_passed (p : ℕ) (ws : List (Dim ℚ × ℚ)) (h : (secondaries p ws).2 = .passed) :
    List.Forall₂ (SecondaryOk p) ws (secondaries p ws).1 := by
  induction ws with
  | nil => exact .nil
  | cons w ws ih =>
    obtain ⟨r, ratio⟩ := w
    simp only [secondaries] at h ⊢
    split at h
    · simp at h
    · rename_i hn
      split at h
      · simp at h
      · simp at h
      · rename_i hacc
        rw [if_neg hn]
        refine .cons ⟨by omega, ?_, ?_⟩ (ih h)
        · simp only [ratioAcceptable] at hacc
          split at hacc
          · simp at hacc
          · rename_i ok hok
            have : ok = true := by
              split at hacc
              · rename_i hb; simp at hb; exact hb.1
              · simpa using hacc
            subst this
            have hcons : ¬ Inconsistent r := by
              rw [← check_throws_iff validity r _, hok]; simp
            exact (check_accepts_iff _ _ _ hcons).mp hok
        · intro h1 h2
          simp only [ratioAcceptable] at hacc
          split at hacc
          · simp at hacc
          · rename_i ok hok
            cases hnom : r.nominal with
            | none =>
              exfalso
              have : r = ⟨none, none, none⟩ := by
                cases r; simp at h1 h2 hnom; simp [h1, h2, hnom]
              rw [this] at hok
              simp [check] at hok; subst hok
              simp at hacc
            | some x =>
              have hno : nominalOnly r = true := by
                simp at h1 h2; simp [nominalOnly, h1, h2, hnom]
              split at hacc
              · exact of_decide_eq_true (Option.some.inj hacc)
              · rename_i hb
                simp [hno] at hb; subst hb; simp at hacc

theorem search_spec (m : ℕ) (hm : 0 < m) (ws : List (Dim ℚ × ℚ)) : ∀ timeout p o,
    search m ws timeout p = .ok o → o.windings = ws ∧ Good ws m o.current ∧ p < primary o.current := by
  intro timeout
  induction timeout with
  | zero => intro p o h; simp [search] at h
  | succ t ih =>
    intro p o h
    have hb := bump_spec m hm m (p + m) (by omega)
    simp only [search] at h
    split at h
    · simp at h
    · rename_i hpass
      split at h
      · simp at h
      · simp at h; subst h
        refine ⟨rfl, ⟨_, _, rfl, by omega, hb.2, secondaries_passed _ _ hpass⟩, ?_⟩
        show p < bump m m (p + m)
        omega
    · split at h
      · simp at h
      · obtain ⟨h1, h2, h3⟩ := ih _ _ h
        exact ⟨h1, h2, by omega⟩

/-! ## Which combination comes next -/

/-- Specification: `q` primary turns fit when every secondary, with the number of turns nearest to `q / ratio` (half
rounded up), is fine. -/
def Fits (ws : List (Dim ℚ × ℚ)) (q : ℕ) : Prop :=
  ∀ w ∈ ws, SecondaryOk q w ⌊(q : ℚ) / w.2 + 1 / 2⌋.toNat

theorem bump_lt (m : ℕ) (hm : 0 < m) : ∀ fuel p, bump m fuel p < p + m := by
  have key : ∀ fuel p, bump m fuel p = p ∨ ∃ d, d ≤ m - p % m ∧ p % m ≠ 0 ∧ bump m fuel p = p + d := by
    intro fuel
    induction fuel with
    | zero => intro p; left; rfl
    | succ fuel ih =>
      intro p
      simp only [bump]
      split
      · rename_i hne
        right
        have hlt := Nat.mod_lt p hm
        by_cases hw : p % m + 1 = m
        · have h0 : (p + 1) % m = 0 := by
            rw [← Nat.mod_add_mod, hw, Nat.mod_self]
          rcases ih (p + 1) with e | ⟨d, _, h2, _⟩
          · exact ⟨1, by omega, hne, by omega⟩
          · exact absurd h0 h2
        · have h1 : (p + 1) % m = p % m + 1 := by
            rw [← Nat.mod_add_mod, Nat.mod_eq_of_lt (by omega)]
          rcases ih (p + 1) with e | ⟨d, h1', _, e⟩
          · exact ⟨1, by omega, hne, by omega⟩
          · exact ⟨d + 1, by omega, hne, by omega⟩
      · left; rfl
  intro fuel p
  have hlt := Nat.mod_lt p hm
  rcases key fuel p with e | ⟨d, h1, h2, e⟩ <;> omega

theorem bump_dvd {m p : ℕ} (h : m ∣ p) : bump m m (p + m) = p + m := by
  cases m with
  | zero => rfl
  | succ k =>
    have : (p + (k + 1)) % (k + 1) = 0 := Nat.mod_eq_zero_of_dvd (Dvd.dvd.add h (dvd_refl _))
    simp [bump, this]

theorem ratioAcceptable_iff (r : Dim ℚ) (hc : ¬ Inconsistent r) (ratio x : ℚ) :
    ∃ b, ratioAcceptable r ratio x = some b ∧ (b = true ↔ InWindow (1 / 4) r x ∧
      (r.minimum = none → r.maximum = none → |x - ratio| ≤ 2 / 100 * ratio)) := by
  have hne := mt (check_throws_iff validity r x).mp hc
  cases hk : check validity r x with
  | none => exact absurd hk hne
  | some ok =>
    have hw : ok = true ↔ InWindow (1 / 4) r x := by
      rw [← check_accepts_iff (1 / 4) r x hc]
      rw [show (1 / 4 : ℚ) = validity from rfl, hk]; simp
    have hno : nominalOnly r = true ↔ r.minimum = none ∧ r.maximum = none ∧ r.nominal.isSome = true := by
      simp [nominalOnly, and_assoc]
    simp only [ratioAcceptable, hk]
    by_cases hb : (ok && nominalOnly r) = true
    · rw [if_pos hb]
      simp only [Bool.and_eq_true] at hb
      have h2 := hno.mp hb.2
      refine ⟨_, rfl, ?_⟩
      rw [decide_eq_true_eq, ← hw]
      exact ⟨fun h => ⟨hb.1, fun _ _ => h⟩, fun h => h.2 h2.1 h2.2.1⟩
    · rw [if_neg hb]
      refine ⟨_, rfl, ?_⟩
      rw [hw]
      refine ⟨fun h => ⟨h, fun h1 h2 => ?_⟩, fun h => h.1⟩
      exfalso
      apply hb
      rw [Bool.and_eq_true]
      refine ⟨hw.mpr h, hno.mpr ⟨h1, h2, ?_⟩⟩
      rcases h.1 with hh | hh | hh
      · exact hh
      · rw [h1] at hh; simp at hh
      · rw [h2] at hh; simp at hh

theorem secondaries_iff (q : ℕ) (ws : List (Dim ℚ × ℚ)) (hc : ∀ w ∈ ws, ¬ Inconsistent w.1) :
    (secondaries q ws).2 ≠ .threw ∧ ((secondaries q ws).2 = .passed ↔ Fits ws q) := by
  induction ws with
  | nil => simp [secondaries, Fits]
  | cons w ws ih =>
    obtain ⟨r, ratio⟩ := w
    obtain ⟨i1, i2⟩ := ih (fun w hw => hc w (List.mem_cons_of_mem _ hw))
    have hcr := hc (r, ratio) List.mem_cons_self
    have hround : roundHalfUp ((q : ℚ) / ratio) = ⌊(q : ℚ) / ratio + 1 / 2⌋.toNat := rfl
    have hfit : Fits ((r, ratio) :: ws) q ↔
        SecondaryOk q (r, ratio) ⌊(q : ℚ) / ratio + 1 / 2⌋.toNat ∧ Fits ws q := by
      simp [Fits]
    simp only [secondaries, hround, hfit, SecondaryOk]
    generalize ⌊(q : ℚ) / ratio + 1 / 2⌋.toNat = n
    by_cases hn : n = 0
    · rw [if_pos hn]
      refine ⟨by simp, ?_⟩
      constructor
      · intro h; simp at h
      · intro h; omega
    · rw [if_neg hn]
      obtain ⟨b, hb, hiff⟩ := ratioAcceptable_iff r hcr ratio ((q : ℚ) / n)
      rw [hb]
      cases b with
      | false =>
        refine ⟨by simp, ?_⟩
        constructor
        · intro h; simp at h
        · intro h
          exact absurd (hiff.mpr h.1.2) (by simp)
      | true =>
        refine ⟨i1, ?_⟩
        show (secondaries q ws).2 = .passed ↔ _
        rw [i2]
        exact ⟨fun h => ⟨⟨by omega, hiff.mp rfl⟩, h⟩, fun h => h.2⟩

theorem search_first (m : ℕ) (hm : 0 < m) (ws : List (Dim ℚ × ℚ)) (hc : ∀ w ∈ ws, ¬ Inconsistent w.1) :
    ∀ t p, 0 < t →
      (∃ (o : Obj) (k : ℕ), search m ws t p = .ok o ∧ k + 1 < t ∧ primary o.current = bump m m (p + m) + k * m ∧
        Fits ws (bump m m (p + m) + k * m) ∧ ∀ j < k, ¬ Fits ws (bump m m (p + m) + j * m)) ∨
      (∃ o : Obj, search m ws t p = .threw o ∧ ∀ j, j + 1 < t → ¬ Fits ws (bump m m (p + m) + j * m)) := by
  intro t
  induction t with
  | zero => intro p h; omega
  | succ t ih =>
    intro p _
    obtain ⟨s1, s2⟩ := secondaries_iff (bump m m (p + m)) ws hc
    have hd := (bump_spec m hm m (p + m) (by omega)).2
    simp only [search]
    cases hr : (secondaries (bump m m (p + m)) ws).2 with
    | threw => exact absurd hr s1
    | passed =>
      simp only
      by_cases ht : t = 0
      · rw [if_pos ht]
        exact Or.inr ⟨_, rfl, by intro j hj; omega⟩
      · rw [if_neg ht]
        refine Or.inl ⟨_, 0, rfl, by omega, by simp [primary], by simpa using s2.mp hr, by intro j hj; omega⟩
    | failed =>
      have h0 : ¬ Fits ws (bump m m (p + m)) := fun hf => by rw [s2.mpr hf] at hr; cases hr
      simp only
      by_cases ht : t = 0
      · rw [if_pos ht]
        exact Or.inr ⟨_, rfl, by intro j hj; omega⟩
      · rw [if_neg ht]
        have hb := bump_dvd hd
        have shift : ∀ k, bump m m (p + m) + m + k * m = bump m m (p + m) + (k + 1) * m := by intro k; ring
        have none_before : ∀ n, (∀ j, j < n → ¬ Fits ws (bump m m (p + m) + m + j * m)) →
            ∀ j, j < n + 1 → ¬ Fits ws (bump m m (p + m) + j * m) := by
          intro n hn j hj
          cases j with
          | zero => simpa using h0
          | succ j => rw [← shift]; exact hn j (by omega)
        rcases ih (bump m m (p + m)) (by omega) with ⟨o, k, e, hk, hp, hf, hj⟩ | ⟨o, e, hj⟩
        · rw [hb] at hp hf hj
          left
          refine ⟨o, k + 1, e, by omega, by rw [hp, shift], by rw [← shift]; exact hf, none_before k hj⟩
        · rw [hb] at hj
          right
          refine ⟨o, e, ?_⟩
          intro j hjt
          exact none_before (t - 1) (fun i hi => hj i (by omega)) j (by omega)

/-- **C07**: the combination computed by a call that does not throw is the first one that fits: its primary is the
least multiple of the multiple asked for that is at least one multiple above the current primary, plus some multiples,
fewer than 999, and no primary in between fits. -/
theorem next_is_first_fit (o : Obj) (m : ℕ) (o' : Obj) (hc : ∀ w ∈ o.windings, ¬ Inconsistent w.1)
    (h : increment o m = .ok o') :
    ∃ q k : ℕ, m ∣ q ∧ primary o.current + m ≤ q ∧ q < primary o.current + 2 * m ∧ k < 999 ∧
      primary o'.current = q + k * m ∧ Fits o.windings (q + k * m) ∧ ∀ j < k, ¬ Fits o.windings (q + j * m) := by
  unfold increment at h
  cases hcur : o.current with
  | nil => rw [hcur] at h; simp at h
  | cons p l =>
    rw [hcur] at h
    simp only at h
    by_cases hm : m = 0
    · rw [if_pos hm] at h; simp at h
    · rw [if_neg hm] at h
      have hb := bump_spec m (by omega) m (p + m) (by omega)
      have hl := bump_lt m (by omega) m (p + m)
      rcases search_first m (by omega) o.windings hc 1000 p (by omega) with ⟨o1, k, e, hk, hp, hf, hj⟩ | ⟨o1, e, _⟩
      · rw [e] at h
        simp only [Out.ok.injEq] at h
        subst h
        exact ⟨_, k, hb.2, hb.1, by simp only [primary]; omega, by omega, hp, hf, hj⟩
      · rw [e] at h; simp at h

/-- **C07**: a call gives up only when none of the first 999 candidates fits. -/
theorem gives_up_only_without_fit (o : Obj) (m : ℕ) (o' : Obj) (hc : ∀ w ∈ o.windings, ¬ Inconsistent w.1)
    (h : increment o m = .threw o') :
    ∃ q : ℕ, m ∣ q ∧ primary o.current + m ≤ q ∧ q < primary o.current + 2 * m ∧
      ∀ j < 999, ¬ Fits o.windings (q + j * m) := by
  unfold increment at h
  cases hcur : o.current with
  | nil => rw [hcur] at h; simp at h
  | cons p l =>
    rw [hcur] at h
    simp only at h
    by_cases hm : m = 0
    · rw [if_pos hm] at h; simp at h
    · rw [if_neg hm] at h
      have hb := bump_spec m (by omega) m (p + m) (by omega)
      have hl := bump_lt m (by omega) m (p + m)
      rcases search_first m (by omega) o.windings hc 1000 p (by omega) with ⟨o1, k, e, _⟩ | ⟨o1, e, hj⟩
      · rw [e] at h; simp at h
      · exact ⟨_, hb.2, hb.1, by simp only [primary]; omega, fun j hj' => hj j (by omega)⟩

/-- A case with rejected candidates: from 9 turns with ratio 3, the candidates 10 and 11 do not fit, 12 does. -/
example : increment ⟨[(⟨some 3, none, none⟩, 3)], [9, 3]⟩ 1 = .ok ⟨[(⟨some 3, none, none⟩, 3)], [12, 4]⟩ := by
  decide +kernel

/-- Result of a sequence of successful calls: the combinations returned and the object at the end; `none`
when some call throws or is undefined. -/
def calls : Obj → List ℕ → Option (List (List ℕ) × Obj)
  | o, [] => some ([], o)
  | o, m :: ms => match getNext o m with
    | .returned c o' => match calls o' ms with
      | some (cs, o'') => some (c :: cs, o'')
      | none => none
    | _ => none

theorem increment_ok (o : Obj) (m : ℕ) (o' : Obj) (h : increment o m = .ok o') :
    o'.windings = o.windings ∧ Good o.windings m o'.current ∧ primary o.current < primary o'.current := by
  unfold increment at h
  split at h
  · simp at h
  · rename_i p l hc
    split at h
    · simp at h
    · rename_i hm
      obtain ⟨h1, h2, h3⟩ := search_spec m (by omega) _ _ _ _ h
      refine ⟨h1, h2, ?_⟩
      rw [hc]; exact h3

theorem calls_spec (ms : List ℕ) (o : Obj) (m0 : ℕ) (hg : Good o.windings m0 o.current)
    (cs : List (List ℕ)) (o' : Obj) (h : calls o ms = some (cs, o')) :
    List.Forall₂ (Good o.windings) ((m0 :: ms).take ms.length) cs ∧
    (cs ++ [o'.current]).Pairwise (fun a b => primary a < primary b) ∧
    (∀ c ∈ cs, primary o.current ≤ primary c) ∧ primary o.current ≤ primary o'.current := by
  induction ms generalizing o m0 cs o' with
  | nil =>
    simp [calls] at h
    obtain ⟨rfl, rfl⟩ := h
    simp
  | cons m ms ih =>
    simp only [calls, getNext] at h
    cases hi : increment o m with
    | ub => rw [hi] at h; simp at h
    | threw o1 => rw [hi] at h; simp at h
    | ok o1 =>
      rw [hi] at h
      simp only at h
      cases hc : calls o1 ms with
      | none => rw [hc] at h; simp at h
      | some r =>
        obtain ⟨cs1, o2⟩ := r
        rw [hc] at h
        simp at h
        obtain ⟨rfl, rfl⟩ := h
        obtain ⟨h1, h2, h3⟩ := increment_ok o m o1 hi
        obtain ⟨i1, i2, i3, i4⟩ := ih o1 m (h1 ▸ h2) cs1 o2 hc
        rw [h1] at i1
        refine ⟨?_, ?_, ?_, by omega⟩
        · simp only [List.length_cons, List.take_succ_cons]
          exact .cons hg i1
        · simp only [List.cons_append, List.pairwise_cons]
          refine ⟨?_, i2⟩
          intro c hc'
          rcases List.mem_append.mp hc' with hc' | hc'
          · have := i3 c hc'; omega
          · simp at hc'; subst hc'; omega
        · intro c hc'
          rcases List.mem_cons.mp hc' with rfl | hc'
          · exact le_refl _
          · have := i3 c hc'; omega

theorem resolveAll_fst (reqs : List (Dim ℚ)) (ws : List (Dim ℚ × ℚ)) (hws : resolveAll reqs = some ws) :
    ws.map Prod.fst = reqs := by
  induction reqs generalizing ws with
  | nil => simp [resolveAll] at hws; subst hws; rfl
  | cons r rs ih =>
    simp only [resolveAll] at hws
    split at hws
    · simp at hws
    · split at hws
      · simp at hws
      · split at hws
        · simp at hws
        · rename_i l hl
          simp at hws; subst hws
          simp [ih l hl]

/-- **C07 (partial)**: for a constructed object and any number of successful calls, every combination
returned has one entry per winding, counts of at least one, ratios that satisfy the requirements, and strictly
increasing primaries; the primary of the combination returned by a call is a multiple of the multiple asked
for in the *previous* call (1 for the first one).  Missing with respect to C07: the multiple asked for in the
call itself (`first_call_ignores_multiple`) and calls after an exception (`bad_combination_after_exception`). -/
theorem combinations_good_partial (initial : ℚ) (reqs : List (Dim ℚ)) (o : Obj)
    (ho : construct initial reqs = some o) (ms : List ℕ) (cs : List (List ℕ)) (o' : Obj)
    (h : calls o ms = some (cs, o')) :
    o.windings.map Prod.fst = reqs ∧ cs.length = ms.length ∧
    List.Forall₂ (Good o.windings) ((1 :: ms).take ms.length) cs ∧
    cs.Pairwise (fun a b => primary a < primary b) := by
  unfold construct at ho
  split at ho
  · simp at ho
  · rename_i ws hws
    split at ho
    · simp at ho
    · split at ho
      · rename_i o1 hi
        simp at ho; subst ho
        obtain ⟨h1, h2, _⟩ := increment_ok _ _ _ hi
        have hspec := calls_spec ms o1 1 (h1 ▸ h2) cs o' h
        refine ⟨?_, ?_, hspec.1, ?_⟩
        · rw [h1]
          exact resolveAll_fst reqs ws hws
        · have := hspec.1.length_eq
          simp at this; exact this.symm
        · exact (List.pairwise_append.mp hspec.2.1).1
      · simp at ho

/-- Every nominal ratio used is positive and is the resolved nominal of its requirement. -/
theorem ratios_positive (reqs : List (Dim ℚ)) (ws : List (Dim ℚ × ℚ)) (h : resolveAll reqs = some ws) :
    ∀ w ∈ ws, 0 < w.2 ∧ resolve w.1 .nominal = some w.2 := by
  induction reqs generalizing ws with
  | nil => simp [resolveAll] at h; subst h; simp
  | cons r rs ih =>
    simp only [resolveAll] at h
    split at h
    · simp at h
    · rename_i x hx
      split at h
      · simp at h
      · rename_i hpos
        split at h
        · simp at h
        · rename_i l hl
          simp at h; subst h
          intro w hw
          rcases List.mem_cons.mp hw with rfl | hw
          · exact ⟨not_le.mp hpos, hx⟩
          · exact ih l hl w hw

/-- **C07 is false as stated (1)**: the first call returns the combination computed by the constructor, so a
request for even primaries starting at 5 returns 5. -/
theorem first_call_ignores_multiple :
    ∃ o o', construct 5 [] = some o ∧ getNext o 2 = .returned [5] o' := by
  refine ⟨⟨[], [5]⟩, ⟨[], [8]⟩, ?_, ?_⟩ <;> decide +kernel

/-- The requirement of the second witness: exactly 2469/2000. -/
def tightReq : Dim ℚ := ⟨none, some (2469 / 2000), some (2469 / 2000)⟩

/-- Does the outcome throw leaving exactly this combination behind? -/
def throwsWith (n : Next) (c : List ℕ) : Bool :=
  match n with
  | .threw o => decide (o.current = c)
  | _ => false

/-- **C07 is false as stated (2)**: with a ratio that no primary between 2470 and 3469 can realise, the object
offers nothing but an exception for the good combination it already held, and is left holding a combination
without secondaries. -/
theorem bad_combination_after_exception :
    ∃ o, construct 2469 [tightReq] = some o ∧ o.current = [2469, 2000] ∧
      throwsWith (getNext o 1) [3469] = true := by
  refine ⟨⟨[(tightReq, 2469 / 2000)], [2469, 2000]⟩, ?_, rfl, ?_⟩ <;> decide +kernel

/-- The object left behind by the previous witness then returns `[3469]`, a combination without its
secondary, as soon as the next search succeeds. -/
theorem bad_combination_returned :
    ∃ o, getNext ⟨[(tightReq, 2469 / 2000)], [3469]⟩ 2469 = .returned [3469] o := by
  refine ⟨⟨[(tightReq, 2469 / 2000)], [7407, 6000]⟩, ?_⟩
  decide +kernel

/-- A non-trivial run: ratio 3 nominal, three calls. -/
example : ∃ o o', construct 7 [⟨some 3, none, none⟩] = some o ∧
    calls o [1, 1] = some ([[9, 3], [12, 4]], o') := by
  refine ⟨⟨[(⟨some 3, none, none⟩, 3)], [9, 3]⟩, ⟨[(⟨some 3, none, none⟩, 3)], [15, 5]⟩, ?_, ?_⟩ <;>
    decide +kernel

end Verif.NumberTurns
