import Verif.Inductance.Lemmas
import Verif.Network.Props
import Mathlib.Analysis.SpecialFunctions.Sqrt

/-! # Leakage, inductances, couplings and the extended cantilever: theorems for C105 to C109 -/

set_option linter.unusedSimpArgs false
set_option linter.unusedSectionVars false

namespace Verif.Inductance

open Finset

variable {K : Type} [Field K] [LinearOrder K] [IsStrictOrderedRing K] {n : Nat}

/-! ## C105: the energy of any currents -/

/-- C105: the matrix of leakage inductances, which is made from the energies of single windings and of pairs, gives the energy
of the field for any currents, and so does the energy that is asked for directly; what a winding sees of another is what the
other sees of it. -/
theorem energy_of_any_currents (g : Grid n K) (x : Vec n K) :
    quadratic (leakage g) x = 4 * Energy g x ∧ fieldEnergy g x = Energy g x ∧ ∀ i j, leakage g i j = leakage g j i := by
  refine ⟨?_, ?_, leakage_symm g⟩
  · rw [quadratic_leakage, integrate_energy]
  · rw [fieldEnergy_eq, integrate_energy]

/-- C105: so that no currents have a negative energy, no self leakage is negative, and no mutual leakage is larger than both
windings allow. -/
theorem leakage_bounds {g : Grid n K} (hg : Sound g) (i j : Fin n) :
    Passive (leakage g) ∧ 0 ≤ leakage g i i ∧ leakage g i j * leakage g i j ≤ leakage g i i * leakage g j j :=
  ⟨leakage_passive hg, passive_diag (leakage_passive hg) i, passive_schwarz (leakage_passive hg) i j⟩

/-- Two windings, and a round column. -/
def exampleGrid : Grid 2 ℚ where
  pi := 22 / 7
  permeability := 7 / 22
  area := 1 / 2
  bobbin := ⟨1, 1, false, true⟩
  points := [⟨1, 0, ![1, 0], ![0, 2]⟩, ⟨2, 0, ![1, 1], ![0, 0]⟩]

theorem exampleGrid_sound : Sound exampleGrid := ⟨by decide +kernel, by decide +kernel, by decide +kernel⟩

example : leakage exampleGrid 0 0 = 6 ∧ leakage exampleGrid 0 1 = 4 ∧ leakage exampleGrid 1 1 = 12 := by decide +kernel

/-! ## C106: the leakage of a pair -/

theorem root_two {rt : K → K} (h : IsRoot rt) : 2 / (1 / rt 2) ^ 2 = 4 := by
  obtain ⟨_, h2⟩ := h 2 (by norm_num)
  have hne : rt 2 ≠ 0 := fun e => by rw [e] at h2; norm_num at h2
  rw [div_pow, one_pow, pow_two, h2]
  norm_num

theorem pair_currents {s d : Fin n} (hsd : s ≠ d) (turns : Vec n K) :
    (fun w => pairMagnitude turns s d w * pairDirection s d w) = two s d 1 (-(turns s / turns d)) := by
  funext w
  unfold pairMagnitude pairDirection two
  by_cases h1 : w = s
  · subst h1; simp [hsd]
  · by_cases h2 : w = d
    · subst h2; simp [h1]
    · simp [h1, h2]

theorem pair_quadratic {rt : K → K} (h : IsRoot rt) (g : Grid n K) (turns : Vec n K) {s d : Fin n} (hsd : s ≠ d) :
    pairLeakage rt g turns s d = quadratic (leakage g) (two s d 1 (-(turns s / turns d))) := by
  unfold pairLeakage
  rw [root_two h, pair_currents hsd, quadratic_leakage]

/-- C106: the leakage from a winding to another, on the same column, is four times the energy of one ampere in the first and
the opposing ampere turns in the second, whatever other windings there are; it is what the matrix of leakages gives, it is not
negative, and the other way around it is the same referred by the square of the turns. -/
theorem pair_leakage {rt : K → K} (hr : IsRoot rt) {g : Grid n K} (hg : Sound g) {turns : Vec n K} (ht : ∀ i, turns i ≠ 0)
    {net : Option (Placed n K)} {s d : Fin n} (hsd : s ≠ d) (hc : ∀ p, net = some p → p.column s = p.column d) :
    leakageBetween rt g turns net s d = 4 * Energy g (fun w => if w = s then 1 else if w = d then -(turns s / turns d) else 0) ∧
    leakageBetween rt g turns net s d =
      leakage g s s - 2 * (turns s / turns d) * leakage g s d + (turns s / turns d) ^ 2 * leakage g d d ∧
    0 ≤ leakageBetween rt g turns net s d ∧
    leakageBetween rt g turns net d s * turns s ^ 2 = leakageBetween rt g turns net s d * turns d ^ 2 := by
  have hpair : ∀ s d : Fin n, (∀ p, net = some p → p.column s = p.column d) →
      leakageBetween rt g turns net s d = pairLeakage rt g turns s d := by
    intro s d hc
    unfold leakageBetween
    cases net with
    | none => rfl
    | some p => simp [hc p rfl]
  rw [hpair s d hc, hpair d s fun p hp => (hc p hp).symm, pair_quadratic hr g turns hsd, pair_quadratic hr g turns hsd.symm]
  have hs := ht s
  have hd := ht d
  refine ⟨?_, ?_, (leakage_passive hg).stored _, ?_⟩
  · rw [quadratic_leakage, integrate_energy]
    congr 2
    funext w
    unfold two
    by_cases h1 : w = s
    · subst h1; simp [hsd]
    · simp [h1]
  · rw [quadratic_two, leakage_symm g d s]; ring
  · rw [quadratic_two, quadratic_two, leakage_symm g d s]
    field_simp
    ring

/-- The inductance of winding `s` with winding `d` in short circuit. -/
def shorted (l : Mat n K) (s d : Fin n) : K := l s s - l s d ^ 2 / l d d

/-- The flux of a winding in short circuit is zero, which is what the inductance is of. -/
theorem shorted_spec {l : Mat n K} {s d : Fin n} (hd : l d d ≠ 0) (hsym : l d s = l s d) {u v : K}
    (h : linked l (two s d u v) d = 0) : linked l (two s d u v) s = shorted l s d * u := by
  have e : ∀ j, linked l (two s d u v) j = u * l j s + v * l j d := by
    intro j
    unfold linked
    rw [← sum_two s d u v fun w => l j w]
    exact Finset.sum_congr rfl fun w _ => mul_comm _ _
  rw [e] at h ⊢
  unfold shorted
  rw [hsym] at h
  have hv : v = -(u * l s d) / l d d := by field_simp; linarith
  rw [hv]
  field_simp
  ring

/-- C106: with the windings on the same column, the short circuit inductance of the matrix of inductances is never more than
the leakage of the pair, and the difference is exact: they are the same when the mutual leakage and the self leakage of the
second winding are as the turns. -/
theorem short_circuit_partial {rt : K → K} (hr : IsRoot rt) {g : Grid (n + 1) K} {lm : K} {turns : Vec (n + 1) K}
    (ht : ∀ i, turns i ≠ 0) {s d : Fin (n + 1)} (hsd : s ≠ d) (hd : 0 < entry lm turns none (leakage g) d d) :
    leakageBetween rt g turns none s d = shorted (entry lm turns none (leakage g)) s d +
      (leakage g s d - turns s / turns d * leakage g d d) ^ 2 / entry lm turns none (leakage g) d d ∧
    shorted (entry lm turns none (leakage g)) s d ≤ leakageBetween rt g turns none s d := by
  have hn : n ≠ 0 := by
    intro e
    subst e
    exact hsd (Subsingleton.elim (α := Fin 1) _ _)
  have key : leakageBetween rt g turns none s d = shorted (entry lm turns none (leakage g)) s d +
      (leakage g s d - turns s / turns d * leakage g d d) ^ 2 / entry lm turns none (leakage g) d d := by
    show pairLeakage rt g turns s d = _
    rw [pair_quadratic hr g turns hsd, quadratic_two, leakage_symm g d s]
    have hne := hd.ne'
    unfold shorted
    unfold entry magnetizing apart at hne ⊢
    simp only [hn, if_false, Bool.false_eq_true] at hne ⊢
    have h0 := ht 0
    have hs := ht s
    have hd' := ht d
    generalize leakage g d d = ldd at *
    generalize leakage g s d = lsd at *
    generalize leakage g s s = lss at *
    rw [← sub_eq_zero]
    have hq : (lm * (turns d / turns 0) * (turns d / turns 0) + ldd) ≠ 0 := hne
    have e1 : turns s / turns d * (turns d / turns 0) = turns s / turns 0 := by field_simp
    have e2 : turns s / turns 0 = turns s / turns d * (turns d / turns 0) := e1.symm
    rw [e2]
    generalize turns s / turns d = r at *
    generalize turns d / turns 0 = q at *
    obtain ⟨w, hw⟩ : ∃ w, w = lm * q * q + ldd := ⟨_, rfl⟩
    rw [← hw] at hq ⊢
    have hl : ldd = w - lm * q * q := by rw [hw]; ring
    rw [hl]
    field_simp
    ring
  refine ⟨key, ?_⟩
  rw [key]
  have : 0 ≤ (leakage g s d - turns s / turns d * leakage g d d) ^ 2 / entry lm turns none (leakage g) d d := by positivity
  linarith

/-- C106: with the windings on two columns the leakage of the pair is the short circuit inductance of the network of
reluctances; both ways are as the self inductances, and the matrix of inductances, which adds the self leakages, gives more:
how much more is exact. -/
theorem short_circuit_across {rt : K → K} {g : Grid (n + 1) K} (hg : Sound g) {lm : K} {turns : Vec (n + 1) K}
    {p : Placed (n + 1) K} (hp : Passive p.matrix) {s d : Fin (n + 1)} (hc : p.column s ≠ p.column d)
    (hs : 0 < p.matrix s s) (hd : 0 < p.matrix d d) :
    leakageBetween rt g turns (some p) s d = shorted p.matrix s d ∧
    0 ≤ leakageBetween rt g turns (some p) s d ∧
    leakageBetween rt g turns (some p) s d * p.matrix d d = leakageBetween rt g turns (some p) d s * p.matrix s s ∧
    shorted (entry lm turns (some p) (leakage g)) s d = leakageBetween rt g turns (some p) s d + leakage g s s +
      p.matrix s d ^ 2 * leakage g d d / (p.matrix d d * (p.matrix d d + leakage g d d)) ∧
    leakageBetween rt g turns (some p) s d ≤ shorted (entry lm turns (some p) (leakage g)) s d := by
  have hn : n ≠ 0 := by
    intro e
    subst e
    exact hc (congrArg p.column (Subsingleton.elim (α := Fin 1) _ _))
  have hss := passive_diag (leakage_passive hg) s
  have hdd := passive_diag (leakage_passive hg) d
  have hsum : 0 < p.matrix d d + leakage g d d := by linarith
  have e1 : leakageBetween rt g turns (some p) s d = shorted p.matrix s d := by
    unfold leakageBetween shorted
    simp only
    rw [if_pos hc, pow_two]
  have e2 : leakageBetween rt g turns (some p) d s = shorted p.matrix d s := by
    unfold leakageBetween shorted
    simp only
    rw [if_pos hc.symm, pow_two]
  have e3 : shorted (entry lm turns (some p) (leakage g)) s d = leakageBetween rt g turns (some p) s d + leakage g s s +
      p.matrix s d ^ 2 * leakage g d d / (p.matrix d d * (p.matrix d d + leakage g d d)) := by
    rw [e1]
    unfold shorted entry magnetizing apart
    simp only [hn, hc, bne_self_eq_false, bne_iff_ne, ne_eq, not_false_eq_true, if_true, if_false, Bool.false_eq_true, add_zero]
    field_simp
    ring
  have e4 : 0 ≤ shorted p.matrix s d := by
    unfold shorted
    have := passive_schwarz hp s d
    rw [sub_nonneg, div_le_iff₀ hd, pow_two]
    exact this
  refine ⟨e1, e1 ▸ e4, ?_, e3, ?_⟩
  · rw [e1, e2]
    unfold shorted
    rw [hp.symmetric d s]
    field_simp
  · rw [e3]
    have : 0 ≤ p.matrix s d ^ 2 * leakage g d d / (p.matrix d d * (p.matrix d d + leakage g d d)) := by positivity
    linarith

theorem sqrt_root : IsRoot Real.sqrt := fun x hx => ⟨Real.sqrt_nonneg x, Real.mul_self_sqrt hx⟩

/-- Two windings of one turn, as `exampleGrid` but over the real numbers. -/
noncomputable def realGrid : Grid 2 ℝ where
  pi := 1
  permeability := 1
  area := 1
  bobbin := ⟨1, 1, false, true⟩
  points := [⟨1, 0, ![1, 0], ![0, 0]⟩, ⟨1, 0, ![1, 1], ![0, 0]⟩]

theorem realGrid_sound : Sound realGrid :=
  ⟨by norm_num [realGrid], by norm_num [realGrid], by intro p hp; simp [realGrid] at hp; rcases hp with rfl | rfl <;> norm_num [realGrid, around]⟩

/-- C106: the short circuit inductance of the matrix need not be the leakage of the pair. -/
theorem short_circuit_differs : shorted (entry 1 (fun _ => (1 : ℚ)) none (leakage exampleGrid)) 0 1 = 66 / 13 ∧
    leakage exampleGrid 0 0 - 2 * leakage exampleGrid 0 1 + leakage exampleGrid 1 1 = 10 := by decide +kernel

example : ∃ v, leakageBetween Real.sqrt realGrid (fun _ => 1) none 0 1 = v ∧ 0 ≤ v :=
  ⟨_, rfl, (pair_leakage sqrt_root realGrid_sound (fun _ => one_ne_zero) (by decide) (by simp)).2.2.1⟩

/-- Two windings on two legs. -/
def exampleLegs : Placed 2 ℚ := ⟨fun i j => if i = j then 2 else -1, fun i => i.val⟩

theorem exampleLegs_passive : Passive exampleLegs.matrix := by
  refine ⟨by decide +kernel, fun x => ?_⟩
  simp only [quadratic, exampleLegs, Fin.sum_univ_two]
  norm_num
  nlinarith [sq_nonneg (x 0 - x 1), sq_nonneg (x 0), sq_nonneg (x 1)]

example : shorted (entry 1 (fun _ => (1 : ℚ)) (some exampleLegs) (leakage exampleGrid)) 0 1 = 8 - 1 / 14 ∧
    leakageBetween (fun _ => 1) exampleGrid (fun _ => 1) (some exampleLegs) 0 1 = 3 / 2 := by decide +kernel

/-! ## C107: the matrix of inductances, and couplings -/

theorem mem_writes {names : Fin (n + 1) → String} {e : Mat (n + 1) K} {w : String × String × K} :
    w ∈ writes names e ↔ ∃ i j, i ≤ j ∧ (w = (names i, names j, e i j) ∨ w = (names j, names i, e i j)) := by
  unfold writes writesOf
  simp only [List.mem_flatMap, List.mem_finRange, true_and]
  constructor
  · rintro ⟨i, j, h⟩
    split at h
    · rename_i hij
      rcases List.mem_cons.mp h with rfl | h
      · exact ⟨i, j, hij, .inl rfl⟩
      · split at h
        · rw [List.mem_singleton] at h; exact ⟨i, j, hij, .inr h⟩
        · simp at h
    · simp at h
  · rintro ⟨i, j, hij, h⟩
    refine ⟨i, j, ?_⟩
    rw [if_pos hij]
    rcases h with rfl | rfl
    · simp
    · by_cases hne : i = j
      · subst hne; simp
      · simp [hne]

theorem readLast_some {l : List (String × String × K)} {a b : String} {v : K} (hall : ∀ w ∈ l, w.1 = a → w.2.1 = b → w.2.2 = v)
    (hex : ∃ w ∈ l, w.1 = a ∧ w.2.1 = b) : readLast l a b = some v := by
  unfold readLast
  cases h : l.reverse.find? fun w => decide (w.1 = a ∧ w.2.1 = b) with
  | none =>
    obtain ⟨w, hw, hab⟩ := hex
    have := List.find?_eq_none.mp h w (List.mem_reverse.mpr hw)
    simp [hab] at this
  | some w =>
    have h1 := List.mem_reverse.mp (List.mem_of_find?_eq_some h)
    have h2 := List.find?_some h
    simp only [decide_eq_true_eq] at h2
    simp [hall w h1 h2.1 h2.2]

theorem readLast_none {l : List (String × String × K)} {a b : String} (hall : ∀ w ∈ l, ¬ (w.1 = a ∧ w.2.1 = b)) :
    readLast l a b = none := by
  unfold readLast
  rw [Option.map_eq_none_iff, List.find?_eq_none]
  intro w hw
  simp only [decide_eq_true_eq]
  exact hall w (List.mem_reverse.mp hw)

theorem entry_symm {lm : K} {turns : Vec (n + 1) K} {net : Option (Placed (n + 1) K)} {l : Mat (n + 1) K}
    (hnet : ∀ p, net = some p → ∀ i j, p.matrix i j = p.matrix j i) (hl : ∀ i j, l i j = l j i) (i j : Fin (n + 1)) :
    entry lm turns net l i j = entry lm turns net l j i := by
  unfold entry magnetizing apart
  cases net with
  | none => simp only [hl i j]; ring
  | some p =>
    simp only [hnet p rfl i j, hl i j]
    congr 1
    by_cases h : p.column i = p.column j
    · simp [h]
    · simp [h, Ne.symm h]

/-- What the inductance between two windings is meant to be: that of the core, and the leakage unless they are on two columns;
a single winding has no leakage. -/
def Between (lm : K) (turns : Vec (n + 1) K) (net : Option (Placed (n + 1) K)) (l : Mat (n + 1) K) (i j : Fin (n + 1)) (v : K) :
    Prop :=
  match net with
  | none => v = lm * turns i * turns j / turns 0 ^ 2 + if n = 0 then 0 else l i j
  | some p => (p.column i = p.column j → v = p.matrix i j + if n = 0 then 0 else l i j) ∧
    (p.column i ≠ p.column j → v = p.matrix i j)

theorem entry_between (lm : K) {turns : Vec (n + 1) K} (h0 : turns 0 ≠ 0) (net : Option (Placed (n + 1) K)) (l : Mat (n + 1) K)
    (i j : Fin (n + 1)) : Between lm turns net l i j (entry lm turns net l i j) := by
  unfold Between entry magnetizing apart
  cases net with
  | none => simp only [Bool.false_eq_true, if_false]; congr 1; field_simp
  | some p =>
    refine ⟨fun h => ?_, fun h => ?_⟩
    · simp [h]
    · simp [h]

/-- C107: with windings of different names, the matrix has an inductance for each pair of windings, in both orders the same, and
for no other names: that of the core and the leakage between the two. -/
theorem matrix_by_names {names : Fin (n + 1) → String} (hn : Function.Injective names) (lm : K) {turns : Vec (n + 1) K}
    (h0 : turns 0 ≠ 0) {net : Option (Placed (n + 1) K)} (hnet : ∀ p, net = some p → ∀ i j, p.matrix i j = p.matrix j i)
    (g : Grid (n + 1) K) :
    (∀ i j, ∃ v, inductanceMatrix names lm turns net (leakage g) (names i) (names j) = some v ∧
      inductanceMatrix names lm turns net (leakage g) (names j) (names i) = some v ∧ Between lm turns net (leakage g) i j v) ∧
    ∀ a b, ((∀ i, names i ≠ a) ∨ ∀ i, names i ≠ b) → inductanceMatrix names lm turns net (leakage g) a b = none := by
  have hsym := entry_symm (lm := lm) (turns := turns) hnet (leakage_symm g)
  have key : ∀ i j, inductanceMatrix names lm turns net (leakage g) (names i) (names j) =
      some (entry lm turns net (leakage g) i j) := by
    intro i j
    unfold inductanceMatrix
    apply readLast_some
    · intro w hw h1 h2
      obtain ⟨a, b, _, rfl | rfl⟩ := mem_writes.mp hw
      · rw [hn h1, hn h2]
      · rw [← hn h1, ← hn h2]; exact hsym a b
    · rcases le_total i j with h | h
      · exact ⟨_, mem_writes.mpr ⟨i, j, h, .inl rfl⟩, rfl, rfl⟩
      · exact ⟨_, mem_writes.mpr ⟨j, i, h, .inr rfl⟩, rfl, rfl⟩
  refine ⟨fun i j => ⟨_, key i j, ?_, entry_between lm h0 net _ i j⟩, fun a b hab => ?_⟩
  · rw [key, hsym]
  · unfold inductanceMatrix
    apply readLast_none
    intro w hw ⟨h1, h2⟩
    obtain ⟨i, j, _, rfl | rfl⟩ := mem_writes.mp hw
    · rcases hab with h | h
      · exact h i h1
      · exact h j h2
    · rcases hab with h | h
      · exact h j h1
      · exact h i h2

example : inductanceMatrix (![("a" : String), "b"] : Fin 2 → String) 1 (fun _ => (1 : ℚ)) none (leakage exampleGrid) "b" "a" = some 5 := by
  decide +kernel

/-- C107: windings of the same name are lost: one inductance is left of four, that of the last. -/
theorem same_names_lost : inductanceMatrix (fun _ => "a" : Fin 2 → String) 1 (fun _ => (1 : ℚ)) none (leakage exampleGrid) "a" "a" =
    some 13 := by decide +kernel

theorem magnetizing_passive {lm : K} (hlm : 0 ≤ lm) (turns : Vec (n + 1) K) {net : Option (Placed (n + 1) K)}
    (hnet : ∀ p, net = some p → Passive p.matrix) : Passive (magnetizing lm turns net) := by
  cases net with
  | none => exact rankOne_passive hlm (ratiosOf turns)
  | some p => exact hnet p rfl

/-- The part of the matrix that is leakage. -/
def leaks (net : Option (Placed (n + 1) K)) (l : Mat (n + 1) K) : Mat (n + 1) K := fun i j =>
  if apart net i j then 0 else if n = 0 then 0 else l i j

theorem leaks_passive {net : Option (Placed (n + 1) K)} {l : Mat (n + 1) K} (hl : Passive l) : Passive (leaks net l) := by
  have hz : Passive (fun _ _ => 0 : Mat (n + 1) K) := ⟨fun _ _ => rfl, fun x => by simp [quadratic]⟩
  by_cases hn : n = 0
  · have : leaks net l = fun _ _ => 0 := by funext i j; simp [leaks, hn]
    rw [this]; exact hz
  · cases net with
    | none =>
      have : leaks none l = l := by funext i j; simp [leaks, hn, apart]
      rw [this]; exact hl
    | some p =>
      have : leaks (some p) l = within p.column l := by
        funext i j
        simp only [leaks, hn, apart, within, if_false]
        by_cases h : p.column i = p.column j <;> simp [h]
      rw [this]; exact passive_within _ hl

/-- C107: the matrix of inductances is of a component that stores energy: it is symmetric, no currents have a negative energy,
no self inductance is negative and no mutual inductance is larger than both windings allow. This holds with windings on one
column, on several, where leakages between columns are left out, and for the matrix the exporters to simulators use, where they
are not. -/
theorem inductances_passive {lm : K} (hlm : 0 ≤ lm) (turns : Vec (n + 1) K) {net : Option (Placed (n + 1) K)}
    (hnet : ∀ p, net = some p → Passive p.matrix) {g : Grid (n + 1) K} (hg : Sound g) :
    Passive (entry lm turns net (leakage g)) ∧ Passive (cantileverMatrix lm turns net (leakage g)) ∧
    ∀ i j, 0 ≤ entry lm turns net (leakage g) i i ∧
      entry lm turns net (leakage g) i j ^ 2 ≤ entry lm turns net (leakage g) i i * entry lm turns net (leakage g) j j ∧
      cantileverMatrix lm turns net (leakage g) i j ^ 2 ≤
        cantileverMatrix lm turns net (leakage g) i i * cantileverMatrix lm turns net (leakage g) j j := by
  have h1 : Passive (entry lm turns net (leakage g)) :=
    passive_add (magnetizing_passive hlm turns hnet) (leaks_passive (net := net) (leakage_passive hg))
  have h2 : Passive (cantileverMatrix lm turns net (leakage g)) := by
    have : cantileverMatrix lm turns net (leakage g) = fun i j => buildMagnetizing lm turns net i j + leakage g i j := rfl
    rw [this]
    refine passive_add ?_ (leakage_passive hg)
    cases net with
    | none => exact rankOne_passive hlm _
    | some p => exact hnet p rfl
  refine ⟨h1, h2, fun i j => ⟨passive_diag h1 i, ?_, ?_⟩⟩
  · rw [pow_two]; exact passive_schwarz h1 i j
  · rw [pow_two]; exact passive_schwarz h2 i j

example : (∀ p, some exampleLegs = some p → Passive p.matrix) ∧ Sound exampleGrid :=
  ⟨fun p hp => by rw [← Option.some.inj hp]; exact exampleLegs_passive, exampleGrid_sound⟩

/-- C107: both matrices are the same for windings on one column; on several they differ by the leakages between columns. -/
theorem two_matrices (lm : K) (turns : Vec (n + 2) K) (net : Option (Placed (n + 2) K)) (l : Mat (n + 2) K) (i j : Fin (n + 2)) :
    cantileverMatrix lm turns net l i j = entry lm turns net l i j + if apart net i j then l i j else 0 := by
  unfold cantileverMatrix assemble buildMagnetizing entry magnetizing apart rankOne ratiosOf
  cases net with
  | none => simp
  | some p => by_cases h : p.column i = p.column j <;> simp [h]

/-- C107: they do differ. -/
theorem two_matrices_differ : cantileverMatrix 1 (fun _ => (1 : ℚ)) (some exampleLegs) (leakage exampleGrid) 0 1 = 3 ∧
    entry 1 (fun _ => (1 : ℚ)) (some exampleLegs) (leakage exampleGrid) 0 1 = -1 := by decide +kernel

/-- No currents but none have no energy. -/
def Definite (l : Mat n K) : Prop := ∀ x, x ≠ 0 → 0 < quadratic l x

theorem definite_schwarz {l : Mat n K} (hs : ∀ i j, l i j = l j i) (hd : Definite l) {i j : Fin n} (hij : i ≠ j) :
    l i j ^ 2 < l i i * l j j := by
  have hj : 0 < l j j := by
    have := hd (ones [j]) (fun e => by have := congrFun e j; simp [ones] at this)
    rwa [quadratic_single] at this
  have := hd (two i j (l j j) (-l i j)) (fun e => by
    have := congrFun e i
    simp [two, hij, hj.ne'] at this)
  rw [quadratic_two, hs j i] at this
  have h2 : l j j * 0 < l j j * (l i i * l j j - l i j ^ 2) := by nlinarith [this]
  have := lt_of_mul_lt_mul_left h2 hj.le
  linarith

theorem entry_energy {lm : K} {turns : Vec (n + 1) K} {net : Option (Placed (n + 1) K)} {l : Mat (n + 1) K} (x : Vec (n + 1) K) :
    quadratic (entry lm turns net l) x = quadratic (magnetizing lm turns net) x + quadratic (leaks net l) x :=
  quadratic_add _ _ _

/-- C107: the matrix of windings on one column is positive definite, so that all couplings made from it are below one, exactly
when no currents without net ampere turns have a field without energy. -/
theorem definite_partial {lm : K} (hlm : 0 < lm) {turns : Vec (n + 1) K} (h0 : turns 0 ≠ 0) {g : Grid (n + 1) K} (hg : Sound g)
    (hn : n ≠ 0) :
    (Definite (entry lm turns none (leakage g)) ↔ ∀ x, x ≠ 0 → ∑ i, turns i * x i = 0 → Energy g x ≠ 0) ∧
    (Definite (entry lm turns none (leakage g)) → ∀ i j, i ≠ j →
      entry lm turns none (leakage g) i j ^ 2 < entry lm turns none (leakage g) i i * entry lm turns none (leakage g) j j) := by
  have hleaks : leaks none (leakage g) = leakage g := by funext i j; simp [leaks, hn, apart]
  have henergy : ∀ x, quadratic (entry lm turns none (leakage g)) x =
      lm * ((∑ i, turns i * x i) / turns 0) ^ 2 + 4 * Energy g x := by
    intro x
    rw [entry_energy, hleaks, quadratic_leakage, integrate_energy]
    congr 1
    have : magnetizing lm turns none = rankOne lm (ratiosOf turns) := rfl
    rw [this, quadratic_rankOne]
    congr 2
    rw [Finset.sum_div]
    refine Finset.sum_congr rfl fun i _ => ?_
    unfold ratiosOf
    ring
  have hpos : ∀ x, 0 ≤ Energy g x := fun x => by rw [← integrate_energy]; exact integrate_nonneg hg x
  refine ⟨⟨fun hd x hx hz he => ?_, fun h x hx => ?_⟩, fun hd i j hij =>
    definite_schwarz (entry_symm (by simp) (leakage_symm g)) hd hij⟩
  · have := hd x hx
    rw [henergy, hz, he] at this
    simp at this
  · rw [henergy]
    by_cases hz : ∑ i, turns i * x i = 0
    · have := lt_of_le_of_ne (hpos x) (h x hx hz).symm
      rw [hz]; simp; linarith
    · have : 0 < lm * ((∑ i, turns i * x i) / turns 0) ^ 2 := by positivity
      have := hpos x
      linarith

/-- C107: it need not be definite: with the same field of both windings all couplings are one, and the model that is exported
cannot be made. -/
theorem definite_fails : ∃ g : Grid 2 ℚ, Sound g ∧ g.points ≠ [] ∧
    entry 1 (fun _ => (1 : ℚ)) none (leakage g) 0 1 ^ 2 =
      entry 1 (fun _ => (1 : ℚ)) none (leakage g) 0 0 * entry 1 (fun _ => (1 : ℚ)) none (leakage g) 1 1 ∧
    invert (cantileverMatrix 1 (fun _ => (1 : ℚ)) none (leakage g)) = none :=
  ⟨⟨1, 1, 1, ⟨1, 1, false, true⟩, [⟨1, 0, ![1, 1], ![0, 0]⟩]⟩, ⟨by decide +kernel, by decide +kernel, by decide +kernel⟩,
    by decide +kernel, by decide +kernel, by decide +kernel⟩

example : ∃ x : Vec 2 ℚ, x ≠ 0 ∧ ∑ i, x i = 0 ∧ Energy exampleGrid x ≠ 0 :=
  ⟨![1, -1], by decide +kernel, by decide +kernel, by decide +kernel⟩

theorem root_unique {rt : K → K} (h : IsRoot rt) {x : K} (hx : 0 ≤ x) : rt (x * x) = x := by
  obtain ⟨h1, h2⟩ := h (x * x) (mul_self_nonneg x)
  exact (mul_self_inj h1 hx).mp h2

/-- C107: the mutual inductance asked for on its own is that of the core, without the leakage that the matrix has between
windings on the same column. -/
theorem mutual_of_the_core {rt : K → K} (hr : IsRoot rt) {lm : K} (hlm : 0 ≤ lm) {turns : Vec (n + 1) K} (ht : ∀ i, 0 < turns i)
    (net : Option (Placed (n + 1) K)) (l : Mat (n + 1) K) {s d : Fin (n + 1)} (hsd : s ≠ d) :
    ∃ m, mutualInductance rt lm turns net s d = .ok m ∧
      entry lm turns net l s d = m + if apart net s d then 0 else l s d := by
  have hn : n ≠ 0 := fun e => by subst e; exact hsd (Subsingleton.elim (α := Fin 1) _ _)
  unfold mutualInductance
  rw [if_neg hsd]
  cases net with
  | some p => exact ⟨_, rfl, by simp [entry, magnetizing, hn]⟩
  | none =>
    refine ⟨_, rfl, ?_⟩
    have e : ∀ i, referred lm turns i = lm * (turns i / turns 0) * (turns i / turns 0) := by
      intro i
      unfold referred
      split
      · rename_i h; subst h; rw [div_self (ht 0).ne']; ring
      · rfl
    have hnn : 0 ≤ lm * (turns s / turns 0) * (turns d / turns 0) := by
      have := ht s; have := ht d; have := ht 0
      positivity
    rw [e, e, show lm * (turns s / turns 0) * (turns s / turns 0) * (lm * (turns d / turns 0) * (turns d / turns 0)) =
      (lm * (turns s / turns 0) * (turns d / turns 0)) * (lm * (turns s / turns 0) * (turns d / turns 0)) from by ring,
      root_unique hr hnn]
    simp [entry, magnetizing, apart, hn]

theorem self_of_matrix {lm : K} {turns : Vec (n + 1) K} (h0 : turns 0 ≠ 0) (net : Option (Placed (n + 1) K)) (l : Mat (n + 1) K)
    (i : Fin (n + 1)) : selfInductance lm turns net l i = entry lm turns net l i i := by
  unfold selfInductance entry magnetizing apart
  cases net with
  | none =>
    simp only [Bool.false_eq_true, if_false]
    congr 1
    unfold referred
    split
    · rename_i h; subst h; rw [div_self h0]; ring
    · rfl
  | some p => simp

/-- C107: whatever matrices are measured, and however they are wrong, no coupling coefficient beyond one and a millionth is ever given,
and only such a one is refused. -/
theorem coupling_never_beyond {rt : K → K} {lm : K} {turns : Vec (n + 1) K} {net : Option (Placed (n + 1) K)} {l : Mat (n + 1) K}
    (s d : Fin (n + 1)) :
    (∀ k, coupling rt lm turns net l s d = .ok k → |k| ≤ 1 + 1 / 10 ^ 6) ∧
    ((∃ x, coupling rt lm turns net l s d = .throws x) ↔ s ≠ d ∧ ∃ m, mutualInductance rt lm turns net s d = .ok m ∧
      1 / 10 ^ 15 ≤ rt (selfInductance lm turns net l s * selfInductance lm turns net l d) ∧
      (1 + 1 / 10 ^ 6) * rt (selfInductance lm turns net l s * selfInductance lm turns net l d) < |m|) := by
  unfold coupling
  by_cases hsd : s = d
  · rw [if_pos hsd]
    refine ⟨fun k hk => ?_, ⟨fun ⟨x, hx⟩ => by simp at hx, fun h => absurd hsd h.1⟩⟩
    simp at hk
    subst hk
    rw [abs_one]
    have : (0 : K) < 1 / 10 ^ 6 := by positivity
    linarith
  · rw [if_neg hsd]
    have hok : ∃ m, mutualInductance rt lm turns net s d = .ok m := by
      unfold mutualInductance
      rw [if_neg hsd]
      cases net <;> exact ⟨_, rfl⟩
    obtain ⟨m, hm⟩ := hok
    rw [hm]
    simp only
    generalize rt (selfInductance lm turns net l s * selfInductance lm turns net l d) = q
    by_cases hq : q < 1 / 10 ^ 15
    · rw [if_pos hq]
      refine ⟨fun k hk => ?_, ⟨fun ⟨x, hx⟩ => by simp at hx, fun ⟨_, _, _, h, _⟩ => absurd hq (not_lt.mpr h)⟩⟩
      simp at hk
      subst hk
      rw [abs_zero]
      positivity
    · rw [if_neg hq]
      have hq0 : 0 < q := lt_of_lt_of_le (by positivity) (not_lt.mp hq)
      have hiff : |m / q| > 1 + 1 / 10 ^ 6 ↔ (1 + 1 / 10 ^ 6) * q < |m| := by
        rw [abs_div, abs_of_pos hq0, gt_iff_lt, lt_div_iff₀ hq0]
      by_cases hb : |m / q| > 1 + 1 / 10 ^ 6
      · rw [if_pos hb]
        refine ⟨fun k hk => by simp at hk, ⟨fun _ => ⟨hsd, m, rfl, not_lt.mp hq, hiff.mp hb⟩, fun _ => ⟨_, rfl⟩⟩⟩
      · rw [if_neg hb]
        refine ⟨fun k hk => ?_, ⟨fun ⟨x, hx⟩ => by simp at hx, fun ⟨_, m', h1, _, h2⟩ => ?_⟩⟩
        · simp at hk
          subst hk
          exact not_lt.mp hb
        · simp at h1
          subst h1
          exact absurd (hiff.mpr h2) hb

/-- C107: the coupling coefficient of any two windings is given, never refused, and is within one: it is the mutual inductance
over the root of the self inductances, which are those of the matrix, unless these are negligible, when it is zero; with itself
a winding has a coupling of one. -/
theorem coupling_within_one {rt : K → K} (hr : IsRoot rt) {lm : K} (hlm : 0 ≤ lm) {turns : Vec (n + 1) K} (ht : ∀ i, 0 < turns i)
    {net : Option (Placed (n + 1) K)} (hnet : ∀ p, net = some p → Passive p.matrix) {g : Grid (n + 1) K} (hg : Sound g)
    (s d : Fin (n + 1)) :
    ∃ k, coupling rt lm turns net (leakage g) s d = .ok k ∧ |k| ≤ 1 ∧ (s = d → k = 1) ∧
      ∀ m, mutualInductance rt lm turns net s d = .ok m →
        (rt (entry lm turns net (leakage g) s s * entry lm turns net (leakage g) d d) < 1 / 10 ^ 15 ∧ k = 0) ∨
        (1 / 10 ^ 15 ≤ rt (entry lm turns net (leakage g) s s * entry lm turns net (leakage g) d d) ∧
          k * rt (entry lm turns net (leakage g) s s * entry lm turns net (leakage g) d d) = m) := by
  unfold coupling
  by_cases hsd : s = d
  · rw [if_pos hsd]
    refine ⟨1, rfl, by simp, fun _ => rfl, fun m hm => ?_⟩
    simp [mutualInductance, hsd] at hm
  · rw [if_neg hsd]
    have hl := leakage_passive hg
    obtain ⟨m, hm, hent⟩ := mutual_of_the_core hr hlm ht net (fun _ _ => 0) hsd
    rw [hm]
    simp only
    rw [self_of_matrix (ht 0).ne', self_of_matrix (ht 0).ne']
    have hmag := magnetizing_passive hlm turns hnet
    have hm' : m = magnetizing lm turns net s d := by
      simp only [ite_self, add_zero] at hent
      rw [← hent]; simp [entry]
    have hss : magnetizing lm turns net s s ≤ entry lm turns net (leakage g) s s := by
      have := passive_diag (leaks_passive (net := net) hl) s
      show _ ≤ magnetizing lm turns net s s + leaks net (leakage g) s s
      linarith
    have hdd : magnetizing lm turns net d d ≤ entry lm turns net (leakage g) d d := by
      have := passive_diag (leaks_passive (net := net) hl) d
      show _ ≤ magnetizing lm turns net d d + leaks net (leakage g) d d
      linarith
    have hsch : m * m ≤ entry lm turns net (leakage g) s s * entry lm turns net (leakage g) d d := by
      rw [hm']
      exact (passive_schwarz hmag s d).trans (mul_le_mul hss hdd (passive_diag hmag d) ((passive_diag hmag s).trans hss))
    obtain ⟨hq0, hqq⟩ := hr _ ((mul_self_nonneg m).trans hsch)
    generalize rt (entry lm turns net (leakage g) s s * entry lm turns net (leakage g) d d) = q at *
    by_cases hlt : q < 1 / 10 ^ 15
    · rw [if_pos hlt]
      exact ⟨0, rfl, by simp, fun h => absurd h hsd, fun m' _ => .inl ⟨hlt, rfl⟩⟩
    · rw [if_neg hlt]
      have hq : 0 < q := lt_of_lt_of_le (by positivity) (not_lt.mp hlt)
      have habs : |m / q| ≤ 1 := by
        rw [abs_div, abs_of_pos hq, div_le_one hq]
        rw [← hqq, ← pow_two, ← pow_two] at hsch
        exact abs_le_of_sq_le_sq hsch hq0
      rw [if_neg (by
        intro h
        have : (0 : K) < 1 / 10 ^ 6 := by positivity
        linarith)]
      refine ⟨m / q, rfl, habs, fun h => absurd h hsd, fun m' hm' => .inr ⟨not_lt.mp hlt, ?_⟩⟩
      have : m = m' := by simpa using hm'
      rw [← this]
      field_simp

example : (∀ i : Fin 2, (0 : ℝ) < (fun _ => 1 : Vec 2 ℝ) i) ∧ IsRoot Real.sqrt ∧ Sound realGrid :=
  ⟨fun _ => one_pos, sqrt_root, realGrid_sound⟩

/-- C107: so that the coupling is not that of the matrix: here the root is of a square. -/
theorem coupling_without_leakage : ∃ (g : Grid 2 ℚ) (rt : ℚ → ℚ), Sound g ∧ rt 4 = 2 ∧ rt 1 = 1 ∧
    coupling rt 1 (fun _ => 1) none (leakage g) 0 1 = .ok (1 / 2) ∧
    entry 1 (fun _ => (1 : ℚ)) none (leakage g) 0 1 / rt (entry 1 (fun _ => (1 : ℚ)) none (leakage g) 0 0 *
      entry 1 (fun _ => (1 : ℚ)) none (leakage g) 1 1) = 3 / 4 :=
  ⟨⟨1, 1 / 16, 1, ⟨1, 1, false, true⟩, [⟨1, 0, ![1, 1], ![0, 0]⟩, ⟨1, 0, ![1, 1], ![0, 0]⟩, ⟨1, 0, ![1, 0], ![0, 1]⟩, ⟨1, 0, ![1, 0], ![0, 1]⟩]⟩,
    fun x => if x = 4 then 2 else x, ⟨by decide +kernel, by decide +kernel, by decide +kernel⟩, by decide +kernel,
    by decide +kernel, by decide +kernel, by decide +kernel⟩

/-- C107: the matrix of the network of reluctances is as the theorems above require. -/
theorem network_passive {net : Network.Network} (hs : Network.Sound net) (ts : List (ℚ × Nat)) (hc : ∀ t ∈ ts, t.2 < net.n) :
    ∃ (m : List (List ℚ)) (l : Mat ts.length ℚ), Network.inductanceMatrix net ts = .ok m ∧
      (∀ i j : Fin ts.length, m[i.val]?.bind (·[j.val]?) = some (l i j)) ∧ Passive l := by
  obtain ⟨m, l, hm, hlen, hrow, hent, hdiag, hquad, hflux⟩ := Network.inductances_of_a_circuit hs ts hc
  refine ⟨m, fun i j => l i.val j.val, hm, fun i j => (hent i j i.isLt j.isLt).1, fun i j => (hent i j i.isLt j.isLt).2.1,
    fun x => ?_⟩
  have := hquad (List.ofFn x) (by simp)
  rw [Finset.sum_range] at this
  refine le_of_le_of_eq this (Eq.symm ?_)
  unfold quadratic
  refine Finset.sum_congr rfl fun i _ => ?_
  rw [Finset.sum_range]
  refine Finset.sum_congr rfl fun j _ => ?_
  simp

/-! ## C108: inversion -/

/-- C108: the inverse of a matrix is given exactly when the matrix can be inverted, and undoes it on both sides; it is refused
exactly when some currents, not all zero, link no flux. -/
theorem inversion (l : Mat n K) :
    (∀ b, invert l = some b → Undoes b l) ∧
    (invert l = none ↔ ∃ x : Vec n K, x ≠ 0 ∧ ∀ i, linked l x i = 0) ∧
    ∀ b, Undoes b l → invert l = some b := by
  have unique : ∀ b c, Undoes b l → Undoes c l → b = c := by
    intro b c hb hc
    funext i k
    have h1 := hb.1 (linked c (ones [k])) i
    have h2 : linked l (linked c (ones [k])) = ones [k] := by funext j; exact hc.2 _ j
    rw [h2, linked_column, linked_column] at h1
    exact h1
  have nosing : ∀ b, Undoes b l → ¬ ∃ x : Vec n K, x ≠ 0 ∧ ∀ i, linked l x i = 0 := by
    rintro b hb ⟨x, hx, hz⟩
    apply hx
    funext j
    have := hb.1 x j
    have e : linked l x = 0 := funext hz
    rw [e, linked_zero] at this
    exact this.symm
  rcases invert_spec l with ⟨b, hb, hu⟩ | ⟨hb, hx⟩
  · refine ⟨fun c hc => by rw [hb] at hc; rw [← Option.some.inj hc]; exact hu,
      ⟨fun h => by rw [hb] at h; simp at h, fun h => absurd h (nosing b hu)⟩, fun c hc => by rw [hb, unique b c hu hc]⟩
  · exact ⟨fun c hc => by rw [hb] at hc; simp at hc, ⟨fun _ => hx, fun _ => hb⟩, fun c hc => absurd hx (nosing c hc)⟩

example : (invert (fun i j : Fin 2 => if i = j then (0 : ℚ) else 2)).map (fun b => (b 0 1, b 0 0)) = some (1 / 2, 0) ∧
    invert (fun _ _ : Fin 2 => (1 : ℚ)) = none := by
  constructor
  · decide +kernel
  · decide +kernel

theorem inverse_symm {l b : Mat n K} (hs : ∀ i j, l i j = l j i) (hu : Undoes b l) (i j : Fin n) : b i j = b j i := by
  -- e_i · b e_j = (l b e_i) · (b e_j) = (b e_i) · (l b e_j)
  have pair : ∀ x y : Vec n K, ∑ k, linked l x k * y k = ∑ k, x k * linked l y k := by
    intro x y
    unfold linked
    simp only [Finset.sum_mul, Finset.mul_sum]
    rw [Finset.sum_comm]
    refine Finset.sum_congr rfl fun k _ => Finset.sum_congr rfl fun m _ => ?_
    rw [hs m k]; ring
  have := pair (linked b (ones [i])) (linked b (ones [j]))
  have e : ∀ k, linked l (linked b (ones [k])) = ones [k] := fun k => funext fun m => hu.2 _ m
  rw [e, e, sum_ones_one] at this
  have h2 : ∑ k, linked b (ones [i]) k * (ones [j] : Vec n K) k = linked b (ones [i]) j := by
    rw [← sum_ones_one j (linked b (ones [i]))]
    exact Finset.sum_congr rfl fun k _ => mul_comm _ _
  rw [h2, linked_column, linked_column] at this
  exact this

/-- C108: a matrix with energy for any currents is never refused, and its inverse is symmetric. -/
theorem inversion_definite {l : Mat n K} (hs : ∀ i j, l i j = l j i) (hd : Definite l) :
    ∃ b, invert l = some b ∧ Undoes b l ∧ ∀ i j, b i j = b j i := by
  rcases invert_spec l with ⟨b, hb, hu⟩ | ⟨_, x, hx, hz⟩
  · exact ⟨b, hb, hu, inverse_symm hs hu⟩
  · exfalso
    have := hd x hx
    have e : quadratic l x = ∑ i, x i * linked l x i := by
      unfold quadratic linked
      refine Finset.sum_congr rfl fun i _ => ?_
      rw [Finset.mul_sum]
      exact Finset.sum_congr rfl fun j _ => by ring
    rw [e] at this
    simp [hz] at this

/-! ## C109: the extended cantilever -/

theorem buildFrom_ok {l : Mat n K} {lm : K} {ratios : Vec n K} {m : Cantilever n K} (h : buildFrom l lm ratios = .ok m) :
    ∃ b, invert l = some b ∧ Undoes b l ∧ (∀ j k, j ≠ k → ratios j * ratios k * b j k ≠ 0) ∧ m.magnetizing = lm ∧ m.ratios = ratios ∧
      ∀ j k, j ≠ k → m.leakages j k = -1 / (ratios j * ratios k * b j k) := by
  unfold buildFrom at h
  cases hb : invert l with
  | none => rw [hb] at h; simp at h
  | some b =>
    rw [hb] at h
    simp only at h
    split at h
    · simp at h
    · rename_i hany
      refine ⟨b, rfl, (inversion l).1 b hb, fun j k hjk hz => hany ?_, ?_⟩
      · simp only [List.any_eq_true, List.mem_finRange, true_and, decide_eq_true_eq]
        exact ⟨j, k, hjk, hz⟩
      · simp only [Res.ok.injEq] at h
        subst h
        exact ⟨rfl, rfl, fun j k hjk => by simp [hjk]⟩

/-- Driven at one winding, the currents are the column of the inverse. -/
theorem driven {l b : Mat n K} (hu : Undoes b l) {x : Vec n K} {j : Fin n} (hx : ∀ i, i ≠ j → linked l x i = 0) (k : Fin n) :
    x k = b k j * linked l x j := by
  have h := hu.1 x k
  rw [← h]
  show ∑ i, b k i * linked l x i = _
  rw [Finset.sum_eq_single j]
  · intro i _ hi
    rw [hx i hi]; ring
  · intro h; exact absurd (Finset.mem_univ j) h

/-- C109: the leakage between two windings of the model is what is measured: with all windings in short circuit but one, the
flux of that one is the current of any other times the leakage between the two and their ratios, with the sign changed; and it
is the same both ways. -/
theorem effective_leakages {l : Mat n K} {lm : K} {ratios : Vec n K} {m : Cantilever n K} (h : buildFrom l lm ratios = .ok m) :
    (∀ (x : Vec n K) (j k : Fin n), k ≠ j → (∀ i, i ≠ j → linked l x i = 0) →
      linked l x j = -(ratios j * ratios k * m.leakages k j * x k)) ∧
    (Passive l → ∀ j k, j ≠ k → m.leakages j k = m.leakages k j) := by
  obtain ⟨b, hb, hu, hne, _, _, hleak⟩ := buildFrom_ok h
  refine ⟨fun x j k hkj hx => ?_, fun hp j k hjk => ?_⟩
  · rw [hleak k j hkj, driven hu hx k]
    have := hne k j hkj
    have h1 : ratios k ≠ 0 := fun e => by rw [e] at this; simp at this
    have h2 : ratios j ≠ 0 := fun e => by rw [e] at this; simp at this
    have h3 : b k j ≠ 0 := fun e => by rw [e] at this; simp at this
    field_simp
  · rw [hleak j k hjk, hleak k j hjk.symm]
    rw [inverse_symm hp.symmetric hu j k, mul_comm (ratios j)]

/-- C109: the model is given exactly when the matrix can be inverted, no ratio is zero, and no winding that is driven leaves another
one without current. -/
theorem model_given (l : Mat n K) (lm : K) (ratios : Vec n K) :
    (∃ m, buildFrom l lm ratios = .ok m) ↔ (¬ ∃ x : Vec n K, x ≠ 0 ∧ ∀ i, linked l x i = 0) ∧
      ∀ (x : Vec n K) (j k : Fin n), x ≠ 0 → k ≠ j → (∀ i, i ≠ j → linked l x i = 0) → ratios j * ratios k * x k ≠ 0 := by
  constructor
  · rintro ⟨m, h⟩
    obtain ⟨b, hb, hu, hne, _⟩ := buildFrom_ok h
    have hs : ¬ ∃ x : Vec n K, x ≠ 0 ∧ ∀ i, linked l x i = 0 := by
      rw [← (inversion l).2.1, hb]; simp
    refine ⟨hs, fun x j k hx hkj hz => ?_⟩
    rw [driven hu hz k]
    have hj : linked l x j ≠ 0 := by
      intro e
      exact hs ⟨x, hx, fun i => by by_cases hi : i = j; · rw [hi]; exact e
                                   · exact hz i hi⟩
    have := hne k j hkj
    have h1 : ratios k ≠ 0 := fun e => by rw [e] at this; simp at this
    have h2 : ratios j ≠ 0 := fun e => by rw [e] at this; simp at this
    have h3 : b k j ≠ 0 := fun e => by rw [e] at this; simp at this
    exact mul_ne_zero (mul_ne_zero h2 h1) (mul_ne_zero h3 hj)
  · rintro ⟨hs, hall⟩
    rcases invert_spec l with ⟨b, hb, hu⟩ | ⟨_, hx⟩
    · unfold buildFrom
      rw [hb]
      simp only
      rw [if_neg]
      · exact ⟨_, rfl⟩
      · simp only [List.any_eq_true, List.mem_finRange, true_and, decide_eq_true_eq, not_exists]
        rintro j k ⟨hjk, hz⟩
        have e : ∀ i, linked l (linked b (ones [k])) i = (ones [k] : Vec n K) i := fun i => hu.2 _ i
        refine hall (linked b (ones [k])) k j (fun h0 => ?_) hjk (fun i hi => by rw [e]; simp [ones, hi]) ?_
        · have := e k
          rw [h0, linked_zero] at this
          simp [ones] at this
        · rw [linked_column, mul_comm (ratios k)]
          exact hz
    · exact absurd hx hs

/-- C109: with rows of leakages as many and as long as the ratios there are, and a positive inductance, the model is that of the
inductances; other numbers of rows are refused. -/
theorem build_from_leakage_partial (rows : List (List K)) (lm : K) (ratios : List K) :
    (ratios.length = 0 ∨ rows.length ≠ ratios.length ∨ lm ≤ 0 → buildFromLeakage rows lm ratios = .throws .invalid) ∧
    (ratios.length ≠ 0 → rows.length = ratios.length → 0 < lm → (∀ r ∈ rows, ratios.length ≤ r.length) →
      ∃ l : Mat ratios.length K, (∀ j k : Fin ratios.length, ∃ v, rows[j.val]?.bind (·[k.val]?) = some v ∧
        l j k = lm * ratios[j] * ratios[k] + v) ∧ buildFromLeakage rows lm ratios = buildFrom l lm ratios.get) := by
  unfold buildFromLeakage
  constructor
  · rintro (h | h | h)
    · rw [if_pos h]
    · simp [h]
    · simp [h]
  · intro h0 hl hlm hr
    rw [if_neg h0, if_neg (not_not.mpr hl), if_neg (not_le.mpr hlm), if_neg (by simpa using hr)]
    refine ⟨_, fun j k => ?_, rfl⟩
    obtain ⟨r, hrow⟩ : ∃ r, rows[j.val]? = some r := ⟨_, List.getElem?_eq_getElem (by rw [hl]; exact j.isLt)⟩
    have hmem := List.mem_of_getElem? hrow
    obtain ⟨v, hv⟩ : ∃ v, r[k.val]? = some v := ⟨_, List.getElem?_eq_getElem (lt_of_lt_of_le k.isLt (hr r hmem))⟩
    refine ⟨v, by simp [hrow, hv], ?_⟩
    simp [assemble, rankOne, hrow, hv]

/-- C109: a row that is short is read past its end. -/
theorem short_row_undefined : buildFromLeakage [[1, 0], [0]] 1 [1, (1 : ℚ)] = .ub := by
  simp [buildFromLeakage]

theorem diagonal_error {l b : Mat (n + 1) K} {lm : K} {ratios : Vec (n + 1) K} {m : Cantilever (n + 1) K}
    (h : buildFrom l lm ratios = .ok m) (hb : invert l = some b) (h0 : ratios 0 = 1) (hlm : lm ≠ 0) (hr : ∀ i, ratios i ≠ 0)
    (j : Fin (n + 1)) : diagonal m j = b j j + (∑ i, b j i * (l i 0 - lm * ratios i)) / (ratios j * lm) := by
  obtain ⟨b', hb', hu, hne, e1, e2, hleak⟩ := buildFrom_ok h
  have : b' = b := by rw [hb] at hb'; exact (Option.some.inj hb').symm
  subst this
  unfold diagonal
  rw [e1, e2]
  have hsum : ((((List.finRange (n + 1)).filter fun i => i ≠ j).map (fun i => 1 / m.leakages j i)).sum) =
      -(ratios j * ∑ i, ratios i * b' j i) + ratios j * ratios j * b' j j := by
    have h1 : (((List.finRange (n + 1)).filter fun i => i ≠ j).map (fun i => 1 / m.leakages j i)) =
        (((List.finRange (n + 1)).filter fun i => i ≠ j).map (fun i => -(ratios j * ratios i * b' j i))) := by
      apply List.map_congr_left
      intro i hi
      have hij : i ≠ j := by simpa using (List.mem_filter.mp hi).2
      rw [hleak j i hij.symm, one_div_div]
      have := hne j i hij.symm
      rw [div_neg, div_one]
    rw [h1]
    have h2 : ∀ f : Fin (n + 1) → K, (((List.finRange (n + 1)).filter fun i => i ≠ j).map f).sum = ∑ i, (if i = j then 0 else f i) := by
      intro f
      rw [← List.sum_ofFn, List.ofFn_eq_map]
      generalize List.finRange (n + 1) = l
      induction l with
      | nil => simp
      | cons a l ih =>
        by_cases ha : a = j
        · simp only [List.filter_cons, ha, ne_eq, not_true_eq_false, decide_false, Bool.false_eq_true, if_false, List.map_cons,
            List.sum_cons, if_true, zero_add]
          exact ih
        · simp only [List.filter_cons, ha, ne_eq, not_false_eq_true, decide_true, if_true, List.map_cons, List.sum_cons, if_false]
          rw [← ih]
    rw [h2]
    have h3 : ∀ i, (if i = j then (0 : K) else -(ratios j * ratios i * b' j i)) =
        -(ratios j * (ratios i * b' j i)) + if i = j then ratios j * ratios j * b' j j else 0 := by
      intro i
      by_cases hi : i = j
      · subst hi; simp; ring
      · simp only [if_neg hi]; ring
    rw [Finset.sum_congr rfl fun i _ => h3 i, Finset.sum_add_distrib, Finset.sum_neg_distrib, ← Finset.mul_sum]
    simp
  rw [hsum]
  have hcol : ∑ i, b' j i * l i 0 = if j = 0 then 1 else 0 := by
    have := hu.1 (ones [0]) j
    have e : linked l (ones [0]) = fun i => l i 0 := funext fun i => linked_column l 0 i
    rw [e] at this
    simp only [linked, ones, List.mem_singleton] at this
    exact this
  have hsplit : ∑ i, b' j i * (l i 0 - lm * ratios i) = (if j = 0 then 1 else 0) - lm * ∑ i, ratios i * b' j i := by
    rw [← hcol, Finset.mul_sum, ← Finset.sum_sub_distrib]
    exact Finset.sum_congr rfl fun i _ => by ring
  rw [hsplit]
  have hj := hr j
  generalize ∑ i, ratios i * b' j i = t
  by_cases hj0 : j = 0
  · subst hj0
    simp only [if_true, h0]
    field_simp
    ring
  · simp only [if_neg hj0]
    field_simp
    ring

/-- C109: the output inductance of the model at every winding is what is measured there with all the others in short circuit,
exactly when the inductances to the first winding are as the ratios: that of the first is the magnetizing inductance. -/
theorem output_inductance_partial {l : Mat (n + 1) K} {lm : K} {ratios : Vec (n + 1) K} {m : Cantilever (n + 1) K}
    (h : buildFrom l lm ratios = .ok m) (h0 : ratios 0 = 1) (hlm : lm ≠ 0) (hr : ∀ i, ratios i ≠ 0) :
    (∀ (j : Fin (n + 1)) (x : Vec (n + 1) K), (∀ i, i ≠ j → linked l x i = 0) → linked l x j * diagonal m j = x j) ↔
      ∀ i, l i 0 = lm * ratios i := by
  obtain ⟨b, hb, hu, _⟩ := buildFrom_ok h
  constructor
  · intro hall
    have hz : ∀ j, ∑ i, b j i * (l i 0 - lm * ratios i) = 0 := by
      intro j
      have e : ∀ i, linked l (linked b (ones [j])) i = (ones [j] : Vec (n + 1) K) i := fun i => hu.2 _ i
      have := hall j (linked b (ones [j])) (fun i hi => by rw [e]; simp [ones, hi])
      rw [e, linked_column, diagonal_error h hb h0 hlm hr j] at this
      simp only [ones, List.mem_singleton, if_true, one_mul, add_eq_left] at this
      rcases div_eq_zero_iff.mp this with h' | h'
      · exact h'
      · exact absurd h' (mul_ne_zero (hr j) hlm)
    intro i
    have := hu.2 (fun i => l i 0 - lm * ratios i) i
    have e : linked b (fun i => l i 0 - lm * ratios i) = 0 := funext hz
    rw [e, linked_zero] at this
    linarith
  · intro hcol j x hx
    rw [diagonal_error h hb h0 hlm hr j]
    simp only [hcol, sub_self, mul_zero, Finset.sum_const_zero, zero_div, add_zero]
    rw [driven hu hx j]
    ring

/-- C109: for windings on one column that is when one ampere in the first winding has no leakage to any winding, itself among
them. -/
theorem output_inductance_one_column {lm : K} (hlm : 0 < lm) {turns : Vec (n + 1) K} (ht : ∀ i, turns i ≠ 0) {l : Mat (n + 1) K}
    {m : Cantilever (n + 1) K} (h : cantilever lm turns none l = .ok m) :
    (∀ (j : Fin (n + 1)) (x : Vec (n + 1) K), (∀ i, i ≠ j → linked (cantileverMatrix lm turns none l) x i = 0) →
      linked (cantileverMatrix lm turns none l) x j * diagonal m j = x j) ↔ ∀ i, l i 0 = 0 := by
  unfold cantilever at h
  rw [if_neg (not_le.mpr hlm)] at h
  rw [output_inductance_partial h (by simp [ratiosOf, ht 0]) hlm.ne' fun i => div_ne_zero (ht i) (ht 0)]
  refine forall_congr' fun i => ?_
  have : cantileverMatrix lm turns none l i 0 = lm * ratiosOf turns i + l i 0 := by
    simp [cantileverMatrix, assemble, buildMagnetizing, rankOne, ratiosOf, ht 0]
  rw [this]
  constructor
  · intro e; linarith
  · intro e; rw [e]; ring

/-- Both output inductances of a model of two windings. -/
def outputs : Res (Cantilever 2 ℚ) → Option (ℚ × ℚ)
  | .ok m => some (outputInductance m 0, outputInductance m 1)
  | _ => none

example : outputs (buildFromLeakage [[0, 0], [0, 1]] 1 [1, (1 : ℚ)]) = some (1 / 2, 1) ∧
    shorted (assemble (fun i j : Fin 2 => if i = j then (j.val : ℚ) else 0) (rankOne 1 fun _ => 1)) 0 1 = 1 / 2 ∧
    shorted (assemble (fun i j : Fin 2 => if i = j then (j.val : ℚ) else 0) (rankOne 1 fun _ => 1)) 1 0 = 1 := by decide +kernel

/-- C109: it is not what is measured otherwise: with one henry of magnetizing inductance and one of leakage in each winding, both
windings have one and a half with the other in short circuit, and the model says three quarters and three. -/
theorem output_inductance_wrong : outputs (buildFromLeakage [[1, 0], [0, 1]] 1 [1, (1 : ℚ)]) = some (3 / 4, 3) ∧
    shorted (assemble (fun i j : Fin 2 => if i = j then (1 : ℚ) else 0) (rankOne 1 fun _ => 1)) 0 1 = 3 / 2 ∧
    shorted (assemble (fun i j : Fin 2 => if i = j then (1 : ℚ) else 0) (rankOne 1 fun _ => 1)) 1 0 = 3 / 2 := by decide +kernel

end Verif.Inductance
