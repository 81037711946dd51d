import Verif.NumberTurns.Props
import Verif.Impedance.Model

/-!
# Properties of the least number of turns of an impedance (C168)
-/

set_option linter.unusedSimpArgs false
set_option linter.unusedVariables false

namespace Verif.Impedance

open Verif.NumberTurns

/-- Turns that meet every requirement, none of them beyond a quarter of the self resonance. -/
def Meets (z : List ℕ → ℝ → ℝ) (resonance : List ℕ → ℝ) (qs : List (ℝ × ℝ)) (turns : List ℕ) : Prop :=
  ∀ q ∈ qs, q.2 ≤ z turns q.1 ∧ q.1 ≤ resonance turns / 4

/-- A requirement beyond a quarter of the self resonance of the turns. -/
def Beyond (resonance : List ℕ → ℝ) (qs : List (ℝ × ℝ)) (turns : List ℕ) : Prop := ∃ q ∈ qs, resonance turns / 4 < q.1

theorem checkAll_spec (z : ℝ → ℝ) (res : ℝ) (qs : List (ℝ × ℝ)) : ∀ r, r ≠ Check.resonant →
    (checkAll z res qs r = .resonant ↔ ∃ q ∈ qs, res / 4 < q.1) ∧
    (checkAll z res qs r = .valid ↔ r = .valid ∧ ∀ q ∈ qs, q.2 ≤ z q.1 ∧ q.1 ≤ res / 4) := by
  induction qs with
  | nil => intro r hr; simp [checkAll, hr]
  | cons q qs ih =>
    intro r hr
    unfold checkAll
    by_cases h : 1 / 4 * res < q.1
    · rw [if_pos h]
      have h' : res / 4 < q.1 := by linarith
      refine ⟨by simp [h'], ?_⟩
      simp only [reduceCtorEq, false_iff, not_and]
      intro _ hall
      have := (hall q (by simp)).2
      linarith
    · rw [if_neg h]
      have h' : q.1 ≤ res / 4 := by push Not at h; linarith
      by_cases hz : z q.1 < q.2
      · rw [if_pos hz]
        obtain ⟨i1, i2⟩ := ih .invalid (by simp)
        rw [i1, i2]
        refine ⟨by simp [not_lt.mpr h'], ?_⟩
        simp only [reduceCtorEq, false_and, false_iff, not_and]
        intro _ hall
        have := (hall q (by simp)).1
        linarith
      · rw [if_neg hz]
        obtain ⟨i1, i2⟩ := ih r hr
        rw [i1, i2]
        refine ⟨by simp [not_lt.mpr h'], ?_⟩
        push Not at hz
        simp [hz, h']

/-- What the loop finds out. -/
theorem turnsLoop_spec (z : List ℕ → ℝ → ℝ) (resonance : List ℕ → ℝ) (qs : List (ℝ × ℝ)) (others : List ℕ) :
    ∀ (t : ℕ) (o : Obj), (∀ w ∈ o.windings, ¬ Requirements.Inconsistent w.1) → o.current ≠ [] →
    (∀ n, turnsLoop z resonance qs others t o = .found n →
      primary o.current ≤ n ∧ Meets z resonance qs (n :: others) ∧ (n = primary o.current ∨ Fits o.windings n) ∧
      ∀ k, primary o.current ≤ k → k < n → (k = primary o.current ∨ Fits o.windings k) →
        ¬ Meets z resonance qs (k :: others) ∧ ¬ Beyond resonance qs (k :: others)) ∧
    (turnsLoop z resonance qs others t o = .minusOne →
      (∃ n, primary o.current ≤ n ∧ (n = primary o.current ∨ Fits o.windings n) ∧ Beyond resonance qs (n :: others)) ∨
      ∃ ns : List ℕ, ns.length = t + 1 ∧ ns.Pairwise (· < ·) ∧
        ∀ k ∈ ns, primary o.current ≤ k ∧ (k = primary o.current ∨ Fits o.windings k) ∧ ¬ Meets z resonance qs (k :: others)) := by
  intro t
  induction t with
  | zero =>
    intro o hc hne
    unfold turnsLoop getNext
    cases hi : increment o 1 with
    | threw o' => simp
    | ub => simp
    | ok o' =>
      simp only
      cases hcur : o.current with
      | nil => exact absurd hcur hne
      | cons p l =>
        simp only [primary, List.head?_cons, Option.getD_some]
        obtain ⟨h1, h2⟩ := checkAll_spec (z (p :: others)) (resonance (p :: others)) qs .valid (by simp)
        cases hk : checkAll (z (p :: others)) (resonance (p :: others)) qs .valid with
        | valid =>
          simp only [Turns.found.injEq, reduceCtorEq, false_implies, and_true]
          rintro n rfl
          exact ⟨le_rfl, (h2.mp hk).2, .inl rfl, fun k h3 h4 => by omega⟩
        | resonant =>
          simp only [reduceCtorEq, false_implies, implies_true, true_and]
          intro _
          exact .inl ⟨p, le_rfl, .inl rfl, h1.mp hk⟩
        | invalid =>
          simp only [reduceCtorEq, false_implies, implies_true, true_and]
          intro _
          refine .inr ⟨[p], by simp, by simp, ?_⟩
          intro k hkk
          simp only [List.mem_singleton] at hkk
          subst hkk
          refine ⟨le_rfl, .inl rfl, ?_⟩
          intro hm
          rw [h2.mpr ⟨rfl, hm⟩] at hk
          simp at hk
  | succ t ih =>
    intro o hc hne
    unfold turnsLoop getNext
    cases hi : increment o 1 with
    | threw o' => simp
    | ub => simp
    | ok o' =>
      simp only
      obtain ⟨q, d, _, hq1, hq2, _, hprim, hfit, hnot⟩ := next_is_first_fit o 1 o' hc hi
      obtain ⟨hw, hgood, hlt⟩ := increment_ok o 1 o' hi
      cases hcur : o.current with
      | nil => exact absurd hcur hne
      | cons p l =>
        rw [hcur] at hq1 hq2 hlt
        simp only [primary, List.head?_cons, Option.getD_some] at hq1 hq2 hlt ⊢
        have hqp : q = p + 1 := by omega
        subst hqp
        obtain ⟨h1, h2⟩ := checkAll_spec (z (p :: others)) (resonance (p :: others)) qs .valid (by simp)
        cases hk : checkAll (z (p :: others)) (resonance (p :: others)) qs .valid with
        | valid =>
          simp only [Turns.found.injEq, reduceCtorEq, false_implies, and_true]
          rintro n rfl
          exact ⟨le_rfl, (h2.mp hk).2, .inl rfl, fun k h3 h4 => by omega⟩
        | resonant =>
          simp only [reduceCtorEq, false_implies, implies_true, true_and]
          intro _
          exact .inl ⟨p, le_rfl, .inl rfl, h1.mp hk⟩
        | invalid =>
          simp only
          have hpm : ¬ Meets z resonance qs (p :: others) := by
            intro hm
            rw [h2.mpr ⟨rfl, hm⟩] at hk
            simp at hk
          have hpb : ¬ Beyond resonance qs (p :: others) := by
            intro hb
            rw [h1.mpr hb] at hk
            simp at hk
          have hne' : o'.current ≠ [] := by
            intro h0
            rw [h0] at hlt
            simp [primary] at hlt
          obtain ⟨i1, i2⟩ := ih o' (by rw [hw]; exact hc) hne'
          rw [hw] at i1 i2
          have hp' : (primary o'.current) = p + 1 + d * 1 := hprim
          have hfit' : Fits o.windings (primary o'.current) := by rw [hp']; exact hfit
          have hmono : p ≤ primary o'.current := by omega
          constructor
          · intro n hn
            obtain ⟨e1, e2, e3, e4⟩ := i1 n hn
            refine ⟨by omega, e2, ?_, ?_⟩
            · right
              rcases e3 with e3 | e3
              · rw [e3]; exact hfit'
              · exact e3
            · intro k hk1 hk2 hk3
              by_cases hkp : k = p
              · subst hkp; exact ⟨hpm, hpb⟩
              · have hkf : Fits o.windings k := by
                  rcases hk3 with h | h
                  · exact absurd h hkp
                  · exact h
                by_cases hlow : k < primary o'.current
                · exfalso
                  have := hnot (k - (p + 1)) (by omega)
                  rw [show p + 1 + (k - (p + 1)) * 1 = k by omega] at this
                  exact this hkf
                · exact e4 k (by omega) hk2 (.inr hkf)
          · intro hn
            rcases i2 hn with ⟨n, e1, e2, e3⟩ | ⟨ns, e1, e2, e3⟩
            · left
              refine ⟨n, by omega, ?_, e3⟩
              right
              rcases e2 with e2 | e2
              · rw [e2]; exact hfit'
              · exact e2
            · right
              refine ⟨p :: ns, by simp [e1], ?_, ?_⟩
              · rw [List.pairwise_cons]
                refine ⟨?_, e2⟩
                intro k hk'
                have := (e3 k hk').1
                omega
              · intro k hk'
                rcases List.mem_cons.mp hk' with rfl | hk'
                · exact ⟨le_rfl, .inl rfl, hpm⟩
                · obtain ⟨f1, f2, f3⟩ := e3 k hk'
                  refine ⟨by omega, ?_, f3⟩
                  right
                  rcases f2 with f2 | f2
                  · rw [f2]; exact hfit'
                  · exact f2

theorem construct_one {ratios : List (Requirements.Dim ℚ)} {o : Obj} (h : construct 1 ratios = some o)
    (hc : ∀ r ∈ ratios, ¬ Requirements.Inconsistent r) :
    o.windings.map Prod.fst = ratios ∧ (∀ w ∈ o.windings, ¬ Requirements.Inconsistent w.1) ∧ o.current ≠ [] ∧ 1 ≤ primary o.current ∧
      Fits o.windings (primary o.current) ∧ ∀ k, 1 ≤ k → k < primary o.current → ¬ Fits o.windings k := by
  unfold construct at h
  cases hr : resolveAll ratios with
  | none => rw [hr] at h; simp at h
  | some ws =>
    rw [hr] at h
    simp only at h
    rw [if_neg (by norm_num)] at h
    have hfst := resolveAll_fst ratios ws hr
    have hcw : ∀ w ∈ ws, ¬ Requirements.Inconsistent w.1 := by
      intro w hw
      apply hc
      rw [← hfst]
      exact List.mem_map_of_mem hw
    have hz : ((1 : ℚ) - 1).floor.toNat = 0 := by decide +kernel
    rw [hz] at h
    cases hi : increment ⟨ws, [0]⟩ 1 with
    | threw o' => rw [hi] at h; simp at h
    | ub => rw [hi] at h; simp at h
    | ok o' =>
      rw [hi] at h
      simp only [Option.some.injEq] at h
      subst h
      obtain ⟨q, d, _, hq1, hq2, _, hprim, hfit, hnot⟩ := next_is_first_fit ⟨ws, [0]⟩ 1 o' hcw hi
      obtain ⟨hw, hgood, hlt⟩ := increment_ok ⟨ws, [0]⟩ 1 o' hi
      simp only [primary] at hq1 hq2
      simp only at hw hfit hnot
      have hq : q = 1 := by omega
      subst hq
      rw [hw]
      refine ⟨hfst, hcw, ?_, by omega, by rw [hprim]; exact hfit, ?_⟩
      · intro h0
        rw [h0] at hprim
        simp [primary] at hprim
        omega
      · intro k hk1 hk2
        have := hnot (k - 1) (by omega)
        rwa [show 1 + (k - 1) * 1 = k by omega] at this

/-- **C168**: the turns found meet every impedance asked for with no frequency beyond a quarter of the self resonance, give the ratios
asked for, and no smaller turns that give them do. -/
theorem minimum_turns {z : List ℕ → ℝ → ℝ} {resonance : List ℕ → ℝ} {qs : List (ℝ × ℝ)} {others : List ℕ}
    {ratios : List (Requirements.Dim ℚ)} {n : ℕ} (hc : ∀ r ∈ ratios, ¬ Requirements.Inconsistent r)
    (h : minimumTurns z resonance (some qs) others ratios = .found n) :
    1 ≤ n ∧ Meets z resonance qs (n :: others) ∧ ∃ ws : List (Requirements.Dim ℚ × ℚ), ws.map Prod.fst = ratios ∧ Fits ws n ∧
      ∀ k, 1 ≤ k → k < n → Fits ws k → ¬ Meets z resonance qs (k :: others) ∧ ¬ Beyond resonance qs (k :: others) := by
  unfold minimumTurns at h
  cases ho : construct 1 ratios with
  | none => rw [ho] at h; simp at h
  | some o =>
    rw [ho] at h
    simp only at h
    obtain ⟨h1, h2, h3, h4, h5, h6⟩ := construct_one ho hc
    obtain ⟨e1, e2, e3, e4⟩ := (turnsLoop_spec z resonance qs others 200 o h2 h3).1 n h
    refine ⟨by omega, e2, o.windings, h1, ?_, ?_⟩
    · rcases e3 with e3 | e3
      · rw [e3]; exact h5
      · exact e3
    · intro k hk1 hk2 hk3
      by_cases hlow : k < primary o.current
      · exact absurd hk3 (h6 k hk1 hlow)
      · exact e4 k (by omega) hk2 (.inr hk3)

/-- **C168**: it gives up only when a frequency is beyond a quarter of the self resonance of some turns tried, or after 201 of them. -/
theorem minimum_turns_gives_up {z : List ℕ → ℝ → ℝ} {resonance : List ℕ → ℝ} {qs : List (ℝ × ℝ)} {others : List ℕ}
    {ratios : List (Requirements.Dim ℚ)} (hc : ∀ r ∈ ratios, ¬ Requirements.Inconsistent r)
    (h : minimumTurns z resonance (some qs) others ratios = .minusOne) :
    ∃ ws : List (Requirements.Dim ℚ × ℚ), ws.map Prod.fst = ratios ∧
      ((∃ n, 1 ≤ n ∧ Fits ws n ∧ Beyond resonance qs (n :: others)) ∨
        ∃ ns : List ℕ, ns.length = 201 ∧ ns.Pairwise (· < ·) ∧ ∀ k ∈ ns, 1 ≤ k ∧ Fits ws k ∧ ¬ Meets z resonance qs (k :: others)) := by
  unfold minimumTurns at h
  cases ho : construct 1 ratios with
  | none => rw [ho] at h; simp at h
  | some o =>
    rw [ho] at h
    simp only at h
    obtain ⟨h1, h2, h3, h4, h5, h6⟩ := construct_one ho hc
    refine ⟨o.windings, h1, ?_⟩
    rcases (turnsLoop_spec z resonance qs others 200 o h2 h3).2 h with ⟨n, e1, e2, e3⟩ | ⟨ns, e1, e2, e3⟩
    · left
      refine ⟨n, by omega, ?_, e3⟩
      rcases e2 with e2 | e2
      · rw [e2]; exact h5
      · exact e2
    · right
      refine ⟨ns, e1, e2, ?_⟩
      intro k hk
      obtain ⟨f1, f2, f3⟩ := e3 k hk
      refine ⟨by omega, ?_, f3⟩
      rcases f2 with f2 | f2
      · rw [f2]; exact h5
      · exact f2

/-- **C168**: without impedances asked for, it refuses. -/
theorem minimum_turns_without_requirement (z : List ℕ → ℝ → ℝ) (resonance : List ℕ → ℝ) (others : List ℕ)
    (ratios : List (Requirements.Dim ℚ)) : minimumTurns z resonance none others ratios = .threw := by
  unfold minimumTurns
  cases construct 1 ratios <;> rfl

/-- An impedance of the turns squared: ten ohms need four turns. -/
theorem four_turns : minimumTurns (fun t _ => ((t.headD 0 : ℕ) : ℝ) ^ 2) (fun _ => 100) (some [(1, 10)]) [] [] = .found 4 := by
  have h1 : construct 1 [] = some ⟨[], [1]⟩ := by decide +kernel
  have h2 : getNext ⟨[], [1]⟩ 1 = .returned [1] ⟨[], [2]⟩ := by decide +kernel
  have h3 : getNext ⟨[], [2]⟩ 1 = .returned [2] ⟨[], [3]⟩ := by decide +kernel
  have h4 : getNext ⟨[], [3]⟩ 1 = .returned [3] ⟨[], [4]⟩ := by decide +kernel
  have h5 : getNext ⟨[], [4]⟩ 1 = .returned [4] ⟨[], [5]⟩ := by decide +kernel
  unfold minimumTurns
  simp only [h1]
  unfold turnsLoop
  simp only [h2]
  norm_num [checkAll]
  unfold turnsLoop
  simp only [h3]
  norm_num [checkAll]
  unfold turnsLoop
  simp only [h4]
  norm_num [checkAll]
  unfold turnsLoop
  simp only [h5]
  norm_num [checkAll]

/-- The claim for the magnetic asked for: the turns found, with those of the other windings that give the ratios, meet every impedance. -/
def MeetsWithRatios : Prop :=
  ∀ (z : List ℕ → ℝ → ℝ) (resonance : List ℕ → ℝ) (qs : List (ℝ × ℝ)) (others : List ℕ) (ratio n : ℕ), 0 < ratio →
    minimumTurns z resonance (some qs) others [⟨some (ratio : ℚ), none, none⟩] = .found n → Meets z resonance qs [n, n / ratio]

/-- **C168** (fails): only the first winding gets its turns while trying: the others keep those they had, so what is found may not meet the
impedance with the turns of the ratios. -/
theorem others_kept : ¬ MeetsWithRatios := by
  intro h
  have h1 : construct 1 [⟨some ((1 : ℕ) : ℚ), none, none⟩] = some ⟨[(⟨some 1, none, none⟩, 1)], [1, 1]⟩ := by decide +kernel
  have h2 : getNext ⟨[(⟨some 1, none, none⟩, 1)], [1, 1]⟩ 1 = .returned [1, 1] ⟨[(⟨some 1, none, none⟩, 1)], [2, 2]⟩ := by decide +kernel
  have hf : minimumTurns (fun t _ => ((t.sum : ℕ) : ℝ)) (fun _ => 100) (some [(1, 50)]) [100] [⟨some ((1 : ℕ) : ℚ), none, none⟩] = .found 1 := by
    unfold minimumTurns
    simp only [h1]
    unfold turnsLoop
    simp only [h2]
    norm_num [checkAll]
  have := h _ _ _ _ 1 1 (by norm_num) hf
  have := (this (1, 50) (by simp)).1
  norm_num at this

end Verif.Impedance
