import Verif.Loading.Model

/-! # Properties of loading a file with outputs -/

set_option linter.unusedSimpArgs false
set_option linter.unusedSectionVars false
set_option linter.unusedVariables false

namespace Verif.Loading

open Verif.Excitation
open Verif.Waveforms (Res)

variable {K : Type} [Field K] [LinearOrder K] [IsStrictOrderedRing K] [FloorRing K]

theorem perPoint_take {outs : List (Option K)} {i : Nat} (h : ∀ j : Nat, j ≤ i → ∃ L, outs[j]? = some (some L)) :
    ∀ L, outs[i]? = some (some L) → (perPoint outs)[i]? = some L := by
  induction outs generalizing i with
  | nil => intro L hL; simp at hL
  | cons o outs ih =>
    intro L hL
    obtain ⟨L0, h0⟩ := h 0 (Nat.zero_le _)
    simp only [List.getElem?_cons_zero, Option.some.injEq] at h0
    subst h0
    cases i with
    | zero => simp only [List.getElem?_cons_zero, Option.some.injEq] at hL; simp [perPoint, hL]
    | succ i =>
      simp only [List.getElem?_cons_succ] at hL
      have := ih (i := i) (fun j hj => by simpa using h (j + 1) (by omega)) L hL
      simpa [perPoint] using this

theorem loaded_each {outs : List (Option K)} {computed required : Res K} {L : K} {Ls : List K} (h : perPoint outs = L :: Ls) (i : Nat) :
    loaded outs computed required i = .ok (((L :: Ls)[i]?).getD ((L :: Ls).getLast (List.cons_ne_nil _ _))) := by
  unfold loaded askedFor
  rw [h]
  simp only [Res.bind, inductanceFor]
  rw [List.getLast?_eq_getLast_of_ne_nil (List.cons_ne_nil _ _)]

/-- **C402 (partial).** A point is processed with the inductance of its own output if that output and all before it have one. What is
missing is a point after an output without inductance: `shifted`. -/
theorem own_inductance_partial {outs : List (Option K)} {i : Nat} (h : ∀ j : Nat, j ≤ i → ∃ L, outs[j]? = some (some L)) {L : K}
    (hL : outs[i]? = some (some L)) (computed required : Res K) : loaded outs computed required i = .ok L := by
  have hp := perPoint_take h L hL
  cases hq : perPoint outs with
  | nil => rw [hq] at hp; simp at hp
  | cons L0 Ls => rw [hq] at hp; rw [loaded_each hq, hp]; rfl

/-- **C402.** The inductance each point gets: the one of as many outputs with inductance as its number, or the last of them. -/
theorem inductance_by_count {outs : List (Option K)} {a b : List (Option K)} {L : K} (h : outs = a ++ some L :: b)
    (computed required : Res K) {i : Nat} (hi : i = (a.filter Option.isSome).length ∨
      ((a.filter Option.isSome).length ≤ i ∧ ∀ o ∈ b, o = none)) : loaded outs computed required i = .ok L := by
  have hf : ∀ l : List (Option K), (perPoint l).length = (l.filter Option.isSome).length := by
    intro l
    induction l with
    | nil => rfl
    | cons o l ih => cases o <;> simpa [perPoint] using ih
  have hp : perPoint outs = perPoint a ++ L :: perPoint b := by subst h; simp [perPoint]
  have hb : (∀ o ∈ b, o = none) → perPoint b = [] := by
    intro hb
    unfold perPoint
    rw [List.filterMap_eq_nil_iff]
    intro o ho; rw [hb o ho]; rfl
  cases hq : perPoint outs with
  | nil => rw [hq] at hp; simp at hp
  | cons L0 Ls =>
    rw [loaded_each hq]
    congr 1
    rcases hi with hi | ⟨hi, hn⟩
    · have he : (L0 :: Ls)[i]? = some L := by
        rw [← hq, hp, List.getElem?_append_right (by rw [hf, hi]), hf, hi]; simp
      rw [he]; rfl
    · rw [hb hn] at hp
      by_cases he : i = (a.filter Option.isSome).length
      · have hg : (L0 :: Ls)[i]? = some L := by
          rw [← hq, hp, List.getElem?_append_right (by rw [hf, he]), hf, he]; simp
        rw [hg]; rfl
      · have hlen : (L0 :: Ls).length ≤ i := by rw [← hq, hp, List.length_append, hf]; simp; omega
        rw [List.getElem?_eq_none hlen, Option.getD_none]
        have : (L0 :: Ls).getLast? = some L := by rw [← hq, hp]; simp
        rw [List.getLast?_eq_getLast_of_ne_nil (List.cons_ne_nil _ _)] at this
        exact Option.some.inj this

/-- **C402.** Without inductances in the outputs, all points are processed with the one of the core and the coil; if it cannot be computed
the file is refused. -/
theorem computed_inductance {outs : List (Option K)} (h : ∀ o ∈ outs, o = none) (computed required : Res K) (i : Nat) :
    loaded outs computed required i = computed := by
  have hp : perPoint outs = [] := by
    unfold perPoint
    rw [List.filterMap_eq_nil_iff]
    intro o ho; rw [h o ho]; rfl
  unfold loaded askedFor
  rw [hp]
  cases computed <;> rfl

/-- **C402.** The requirement on the inductance is never what points are processed with. -/
theorem requirement_unused (outs : List (Option K)) (computed r s : Res K) (i : Nat) :
    loaded outs computed r i = loaded outs computed s i := by
  unfold loaded askedFor
  cases hq : perPoint outs with
  | nil => cases computed <;> rfl
  | cons L Ls => simp only [Res.bind, inductanceFor]; rw [List.getLast?_eq_getLast_of_ne_nil (List.cons_ne_nil _ _)]

/-- **C402.** After an output without inductance, points are processed with the inductance of another point. -/
theorem shifted : loaded (K := ℚ) [none, some 5, some 7] (.ok 9) (.ok 1) 0 = .ok 5 ∧
    loaded (K := ℚ) [none, some 5, some 7] (.ok 9) (.ok 1) 1 = .ok 7 ∧
    loaded (K := ℚ) [none, some 5, some 7] (.ok 9) (.ok 1) 2 = .ok 7 := ⟨by decide +kernel, by decide +kernel, by decide +kernel⟩

example : loaded (K := ℚ) [some 5, some 7] (.ok 9) (.ok 1) 1 = .ok 7 :=
  own_inductance_partial (by
    intro j hj
    have : j = 0 ∨ j = 1 := by omega
    rcases this with rfl | rfl <;> simp) rfl _ _

end Verif.Loading
