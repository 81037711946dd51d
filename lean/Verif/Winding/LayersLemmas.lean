import Verif.Winding.Layers
import Verif.Winding.SectionsLemmas

/-! # Lemmas about the layers -/

namespace Verif.Winding

open Verif.Round

set_option linter.unusedSimpArgs false

/-- The conduction layers. -/
def condLayers (ls : List Layer) : List Layer := ls.filter (·.conduction)

/-- Repeated splitting, `step left cs` being the row when `left` more slots follow. -/
def run (step : Nat → List Nat → List Nat) : Nat → List Nat → List (List Nat)
  | 0, _ => []
  | left + 1, cs => step left cs :: run step left (minus cs (step left cs))

/-- What is left. -/
def runLeft (step : Nat → List Nat → List Nat) : Nat → List Nat → List Nat
  | 0, cs => cs
  | left + 1, cs => runLeft step left (minus cs (step left cs))

theorem run_runNat (style : Style) : ∀ (m : Nat) (cs : List Nat),
    run (fun left => stepNat style (left + 1)) m cs = runNat style m cs
  | 0, _ => rfl
  | m + 1, cs => by simp only [run, runNat, run_runNat style m]

theorem all_zero_props {T : Nat} (hT : 0 < T) (ks : List Nat) :
    (props T ks).all (fun p => decide (p = 0)) = true ↔ ∀ k ∈ ks, k = 0 := by
  have hq : (T : ℚ) ≠ 0 := by exact_mod_cast hT.ne'
  simp only [props, List.all_map, List.all_eq_true, Function.comp, decide_eq_true_eq, div_eq_zero_iff, hq, or_false]
  constructor
  · intro h k hk; exact_mod_cast h k hk
  · intro h k hk; exact_mod_cast h k hk

theorem interlayer_cond (s : SectionIn) (room : Room) (i : Nat) (c : ℚ × ℚ) :
    condLayers (interlayerOf s room i c).1 = [] := by
  unfold interlayerOf
  cases s.interlayer <;> simp [condLayers]

theorem layerOf_cond (env : LayerEnv) (s : SectionIn) (plan : LayerPlan) (i physical : Nat) (ps : List ℚ) (c : ℚ × ℚ) :
    (layerOf env s plan i physical ps c).conduction = true := rfl

/-- The loop over layers follows the splitting, and throws exactly when a row is empty. -/
theorem layerLoop_run (env : LayerEnv) (s : SectionIn) (plan : LayerPlan) (hT : 0 < s.turns)
    (step : Nat → List Nat → List Nat) (Inv : Nat → List Nat → Prop)
    (hI : ∀ left cs, left < plan.count → cs.length = s.parallels → Inv (left + 1) cs →
      split (plan.count - (left + 1)) plan.count s.turns s.parallels (props s.turns cs) plan.style 1
        (plan.forcedAt (plan.count - (left + 1))) =
        .ok ((step left cs).sum, props s.turns (step left cs)) ∧ Le (step left cs) cs ∧
        Inv left (minus cs (step left cs))) :
    ∀ (left : Nat) (cs : List Nat) (c : ℚ × ℚ), left ≤ plan.count → cs.length = s.parallels → Inv left cs →
      ((∀ row ∈ run step left cs, ∃ k ∈ row, k ≠ 0) →
        ∃ ls, layerLoop env s plan left (props s.turns cs) c = .ok ls ∧
          (condLayers ls).map (·.props) = (run step left cs).map (props s.turns) ∧
          (condLayers ls).map (·.physical) = (run step left cs).map List.sum ∧
          (condLayers ls).map (·.index) = List.range' (plan.count - left) left ∧
          ∀ l ∈ condLayers ls, l.style = plan.style) ∧
      ((∃ row ∈ run step left cs, ∀ k ∈ row, k = 0) →
        layerLoop env s plan left (props s.turns cs) c = .thrown "Parallel proportion in layer cannot be all be 0")
  | 0, cs, c, _, _, _ => by simp [run, layerLoop, condLayers]
  | left + 1, cs, c, hl, hlen, hinv => by
    obtain ⟨h1, h2, h3⟩ := hI left cs (by omega) hlen hinv
    have ih := layerLoop_run env s plan hT step Inv hI left (minus cs (step left cs))
    have hlen' : (minus cs (step left cs)).length = s.parallels := by rw [minus_length h2, hlen]
    have hz := all_zero_props hT (step left cs)
    unfold layerLoop
    simp only [h1, Res.bind, run]
    by_cases hzero : ∀ k ∈ step left cs, k = 0
    · rw [if_pos (hz.mpr hzero)]
      refine ⟨fun h => ?_, fun _ => rfl⟩
      obtain ⟨k, hk, hne⟩ := h _ List.mem_cons_self
      exact absurd (hzero k hk) hne
    · rw [if_neg (fun h => hzero (hz.mp h)), takeAway_props _ h2]
      by_cases h0 : left = 0
      · subst h0
        simp only [if_pos, run]
        refine ⟨fun _ => ⟨_, rfl, ?_⟩, ?_⟩
        · simp [condLayers, layerOf, List.range']
        · rintro ⟨row, hrow, hr⟩
          simp only [List.mem_singleton] at hrow
          subst hrow
          exact absurd hr hzero
      · rw [if_neg h0]
        obtain ⟨ih1, ih2⟩ := ih (halfStep s.orientation (plan.room.depth s.orientation)
          (interlayerOf s plan.room (plan.count - (left + 1))
            (halfStep s.orientation (plan.room.depth s.orientation) c)).2) (by omega) hlen' h3
        refine ⟨fun h => ?_, ?_⟩
        · obtain ⟨ls, e1, e2, e3, e4, e5⟩ := ih1 (fun row hr => h row (List.mem_cons_of_mem _ hr))
          refine ⟨_, by rw [e1], ?_⟩
          have hc : condLayers (layerOf env s plan (plan.count - (left + 1)) (step left cs).sum
                (props s.turns (step left cs)) c ::
              (interlayerOf s plan.room (plan.count - (left + 1))
                (halfStep s.orientation (plan.room.depth s.orientation) c)).1 ++ ls) =
              layerOf env s plan (plan.count - (left + 1)) (step left cs).sum
                (props s.turns (step left cs)) c :: condLayers ls := by
            have := interlayer_cond s plan.room (plan.count - (left + 1))
              (halfStep s.orientation (plan.room.depth s.orientation) c)
            unfold condLayers at this ⊢
            rw [List.filter_append, List.filter_cons_of_pos (by rfl), this]
            rfl
          rw [hc]
          refine ⟨by simp [e2, layerOf], by simp [e3, layerOf], ?_, ?_⟩
          · rw [List.map_cons, e4, List.range'_succ]
            simp only [layerOf]
            rw [show plan.count - (left + 1) + 1 = plan.count - left by omega]
          · intro l hl
            rcases List.mem_cons.mp hl with rfl | hl
            · rfl
            · exact e5 l hl
        · rintro ⟨row, hrow, hr⟩
          rcases List.mem_cons.mp hrow with rfl | hrow
          · exact absurd hr hzero
          · rw [ih2 ⟨row, hrow, hr⟩]

theorem le_zip_minus {ks cs : List Nat} (h : Le ks cs) : Le (minus cs ks) cs := by
  induction h with
  | nil => exact .nil
  | cons h t ih => exact .cons (Nat.sub_le _ _) ih

/-- Not blocked: the splitting of the sections, again. -/
theorem layerLoop_free (env : LayerEnv) (s : SectionIn) (plan : LayerPlan) (hT : 0 < s.turns)
    (hf : plan.forced = none) (hb : plan.count ≤ 2 * 10 ^ 10) {cs : List Nat} (hlen : cs.length = s.parallels)
    (c : ℚ × ℚ) :
    ((∀ row ∈ runNat plan.style plan.count cs, ∃ k ∈ row, k ≠ 0) →
        ∃ ls, layerLoop env s plan plan.count (props s.turns cs) c = .ok ls ∧
          (condLayers ls).map (·.props) = (runNat plan.style plan.count cs).map (props s.turns) ∧
          (condLayers ls).map (·.physical) = (runNat plan.style plan.count cs).map List.sum ∧
          (condLayers ls).map (·.index) = List.range plan.count ∧
          ∀ l ∈ condLayers ls, l.style = plan.style) ∧
      ((∃ row ∈ runNat plan.style plan.count cs, ∀ k ∈ row, k = 0) →
        layerLoop env s plan plan.count (props s.turns cs) c =
          .thrown "Parallel proportion in layer cannot be all be 0") := by
  have := layerLoop_run env s plan hT (fun left => stepNat plan.style (left + 1)) (fun _ _ => True) (by
    intro left cs hl hlen _
    refine ⟨?_, stepNat_le _ (by omega) _, trivial⟩
    have := split_step hT (plan.count - (left + 1)) plan.count cs plan.style (by omega) hb
    rw [show plan.count - (plan.count - (left + 1)) = left + 1 by omega] at this
    rw [← hlen, LayerPlan.forcedAt, hf]
    exact this) plan.count cs c (le_refl _) hlen trivial
  rw [run_runNat, Nat.sub_self, ← List.range_eq_range'] at this
  exact this

/-! ## Blocked layers -/

/-- The row of a slot with a given number of turns. -/
def forcedNat (style : Style) (k : Nat) (cs : List Nat) : List Nat :=
  match style with
  | .turns => fillNat k cs
  | .parallels => rrNat k cs

theorem forcedNat_le (style : Style) (k : Nat) (cs : List Nat) : Le (forcedNat style k cs) cs := by
  cases style with
  | turns => exact fillNat_le _ _
  | parallels => exact (rrNat_spec k cs).1

theorem forcedNat_sum (style : Style) (k : Nat) (cs : List Nat) : (forcedNat style k cs).sum = min k cs.sum := by
  cases style with
  | turns => exact fillNat_sum _ _
  | parallels => exact (rrNat_spec k cs).2.1

theorem split_forced {T : Nat} (hT : 0 < T) (i n : Nat) (cs : List Nat) (style : Style) (k : Nat)
    (hk : k ≤ cs.sum) :
    split i n T cs.length (props T cs) style 1 (some k) =
      .ok ((forcedNat style k cs).sum, props T (forcedNat style k cs)) := by
  cases style with
  | turns =>
    rw [split_turns_forced hT i n cs 1 k hk, forcedNat_sum, min_eq_left hk]
    rfl
  | parallels =>
    rw [split_parallels_forced hT i n cs 1 k, forcedNat_sum]
    rfl

/-- Rows with given numbers of turns. -/
def runForced (style : Style) : List Nat → List Nat → List (List Nat)
  | [], _ => []
  | k :: ks, cs => forcedNat style k cs :: runForced style ks (minus cs (forcedNat style k cs))

theorem run_forced (style : Style) (per : List Nat) : ∀ (left : Nat) (cs : List Nat), left ≤ per.length →
    run (fun left cs => forcedNat style (per.getD (per.length - (left + 1)) 0) cs) left cs =
      runForced style (per.drop (per.length - left)) cs
  | 0, cs, _ => by simp [run, runForced]
  | left + 1, cs, h => by
    have hd : per.drop (per.length - (left + 1)) =
        per.getD (per.length - (left + 1)) 0 :: per.drop (per.length - left) := by
      rw [List.drop_eq_getElem_cons (by omega), show per.length - (left + 1) + 1 = per.length - left by omega]
      congr 1
      rw [List.getD, List.getElem?_eq_getElem (by omega), Option.getD_some]
    rw [hd]
    simp only [run, runForced]
    rw [run_forced style per left _ (by omega)]

theorem runForced_sums (style : Style) : ∀ (per cs : List Nat), per.sum ≤ cs.sum →
    (runForced style per cs).map List.sum = per
  | [], _, _ => rfl
  | k :: ks, cs, h => by
    have h1 := minus_sum (forcedNat_le style k cs)
    rw [forcedNat_sum] at h1
    simp only [List.sum_cons] at h
    have h2 : min k cs.sum = k := by omega
    simp only [runForced, List.map_cons, forcedNat_sum, h2]
    rw [runForced_sums style ks _ (by omega)]

theorem runForced_column (style : Style) (j : Nat) : ∀ (per cs : List Nat), per.sum = cs.sum →
    column j (runForced style per cs) = cs.getD j 0
  | [], cs, h => by
    have : cs.getD j 0 = 0 := by
      have h0 : cs.sum = 0 := h.symm
      by_contra hne
      have hj : j < cs.length := by
        by_contra hj
        have hno : cs[j]? = none := List.getElem?_eq_none (by omega)
        exact hne (by rw [List.getD, hno, Option.getD_none])
      have hm : cs.getD j 0 ∈ cs := by
        rw [List.getD, List.getElem?_eq_getElem hj, Option.getD_some]
        exact List.getElem_mem hj
      have := List.le_sum_of_mem hm
      omega
    simp only [List.getD] at this
    simp [column, runForced, this]
  | k :: ks, cs, h => by
    have h1 := minus_sum (forcedNat_le style k cs)
    rw [forcedNat_sum] at h1
    simp only [List.sum_cons] at h
    have ih := runForced_column style j ks (minus cs (forcedNat style k cs)) (by omega)
    have h2 := (minus_getD j (forcedNat_le style k cs)).1
    simp only [column, runForced, List.map_cons, List.sum_cons] at ih ⊢
    omega

theorem layerLoop_forced (env : LayerEnv) (s : SectionIn) (plan : LayerPlan) (hT : 0 < s.turns)
    {per : List Nat} (hf : plan.forced = some per) (hc : plan.count = per.length) {cs : List Nat}
    (hlen : cs.length = s.parallels) (hsum : per.sum ≤ cs.sum) (c : ℚ × ℚ) :
    ((∀ row ∈ runForced plan.style per cs, ∃ k ∈ row, k ≠ 0) →
        ∃ ls, layerLoop env s plan plan.count (props s.turns cs) c = .ok ls ∧
          (condLayers ls).map (·.props) = (runForced plan.style per cs).map (props s.turns) ∧
          (condLayers ls).map (·.physical) = (runForced plan.style per cs).map List.sum ∧
          (condLayers ls).map (·.index) = List.range plan.count ∧
          ∀ l ∈ condLayers ls, l.style = plan.style) ∧
      ((∃ row ∈ runForced plan.style per cs, ∀ k ∈ row, k = 0) →
        layerLoop env s plan plan.count (props s.turns cs) c =
          .thrown "Parallel proportion in layer cannot be all be 0") := by
  have := layerLoop_run env s plan hT
    (fun left cs => forcedNat plan.style (per.getD (per.length - (left + 1)) 0) cs)
    (fun left cs => (per.drop (per.length - left)).sum ≤ cs.sum) (by
    intro left cs hl hlen hinv
    have hd : per.drop (per.length - (left + 1)) =
        per.getD (per.length - (left + 1)) 0 :: per.drop (per.length - left) := by
      rw [List.drop_eq_getElem_cons (by omega), show per.length - (left + 1) + 1 = per.length - left by omega]
      congr 1
      rw [List.getD, List.getElem?_eq_getElem (by omega), Option.getD_some]
    rw [hd, List.sum_cons] at hinv
    refine ⟨?_, forcedNat_le _ _ _, ?_⟩
    · rw [← hlen, LayerPlan.forcedAt, hf, hc]
      exact split_forced hT _ _ cs plan.style _ (by omega)
    · have h1 := minus_sum (forcedNat_le plan.style (per.getD (per.length - (left + 1)) 0) cs)
      rw [forcedNat_sum] at h1
      omega) plan.count cs c (le_refl _) hlen (by rw [hc, Nat.sub_self, List.drop_zero]; exact hsum)
  rw [hc, run_forced _ _ _ _ (le_refl _), Nat.sub_self, List.drop_zero, ← List.range_eq_range', ← hc] at this
  exact this

theorem blockedTurns_facts (P : Nat) (capacity : Nat → Nat) : ∀ (remaining k : Nat),
    (blockedTurns P capacity remaining k).sum ≤ remaining ∧
    (∀ t ∈ blockedTurns P capacity remaining k, 0 < t) ∧
    (∀ i t, (blockedTurns P capacity remaining k)[i]? = some t → t ≤ capacity (k + i) / P * P) ∧
    ((∀ i, P ≤ capacity i) → 0 < P → (blockedTurns P capacity remaining k).sum = remaining) := by
  intro remaining
  induction remaining using Nat.strong_induction_on with
  | _ remaining ih =>
    intro k
    unfold blockedTurns
    by_cases h : 0 < remaining
    · rw [dif_pos h]
      by_cases hc : capacity k / P * P = 0
      · rw [dif_pos hc]
        refine ⟨by simp, by simp, by simp, fun hcap hP => ?_⟩
        have := Nat.div_pos (hcap k) hP
        have := Nat.mul_pos this hP
        omega
      · rw [dif_neg hc]
        obtain ⟨h1, h2, h3, h4⟩ := ih (remaining - min (capacity k / P * P) remaining) (by omega) (k + 1)
        refine ⟨by rw [List.sum_cons]; omega, ?_, ?_, ?_⟩
        · intro t ht
          rcases List.mem_cons.mp ht with rfl | ht
          · omega
          · exact h2 t ht
        · intro i t ht
          cases i with
          | zero =>
            simp only [List.getElem?_cons_zero, Option.some.injEq] at ht
            rw [Nat.add_zero]; omega
          | succ i =>
            have := h3 i t (by simpa using ht)
            rw [show k + (i + 1) = k + 1 + i by omega]
            exact this
        · intro hcap hP
          rw [List.sum_cons, h4 hcap hP]; omega
    · rw [dif_neg h]
      exact ⟨by simp, by simp, by simp, fun _ _ => by simp; omega⟩

end Verif.Winding
