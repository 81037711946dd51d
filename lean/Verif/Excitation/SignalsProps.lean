import Verif.Excitation.Signals
import Mathlib.Algebra.Order.Field.Rat
import Mathlib.Data.Rat.Floor
import Mathlib.Tactic.NormNum
import Mathlib.Tactic.Ring

/-! # Decisions on the currents of an operating point: specification and theorems -/

namespace Verif.Excitation

open Verif.Waveforms (Waveform Label Res)

set_option linter.unusedSectionVars false
set_option linter.unusedSimpArgs false

variable {K : Type} [Field K] [LinearOrder K] [IsStrictOrderedRing K] [FloorRing K]

/-! ## Specification -/

/-- `m` is the largest magnitude of some values, of which there are some. -/
def LargestMagnitude (l : List K) (m : K) : Prop := (∃ x ∈ l, |x| = m) ∧ ∀ x ∈ l, |x| ≤ m

/-- `m` is the largest power of any winding at any time, or zero when none is positive. -/
def LargestPower (powers : List (List K)) (m : K) : Prop :=
  0 ≤ m ∧ (∀ p ∈ powers, ∀ x ∈ p, x ≤ m) ∧ (m = 0 ∨ ∃ p ∈ powers, m ∈ p)

/-- At the point `i` some windings conduct, with more than a hundredth of the power `m`, and some do not. -/
def Mixed (powers : List (List K)) (m : K) (i : Nat) : Prop :=
  ∃ p ∈ powers, ∃ q ∈ powers, ∃ x y : K, p[i]? = some x ∧ q[i]? = some y ∧ m / 100 < |x| ∧ |y| ≤ m / 100

/-- The windings have a current and a voltage with a waveform each, as many points in one as in the other; `powers`
are the products of their points. -/
inductive HavePowers : List (Exc K) → List (List K) → Prop
  | nil : HavePowers [] []
  | cons {e : Exc K} {es : List (Exc K)} {p : List K} {ps : List (List K)} {c v : Signal K} {cw vw : Waveform K}
      (hc : e.current = some c) (hv : e.voltage = some v) (hcw : c.waveform = some cw) (hvw : v.waveform = some vw)
      (hlen : cw.data.length = vw.data.length) (hne : cw.data ≠ []) (hp : p = List.zipWith (· * ·) cw.data vw.data)
      (rest : HavePowers es ps) : HavePowers (e :: es) (p :: ps)

/-- Two lists of harmonics that agree within 0.0001 in frequency and amplitude. -/
def Agree (l m : List (K × K)) : Prop :=
  List.Forall₂ (fun a b : K × K => |a.1 - b.1| ≤ 1 / 10000 ∧ |a.2 - b.2| ≤ 1 / 10000) l m

/-! ## Lemmas -/

theorem products_ok (c v : List K) (h : c.length = v.length) : products c v = .ok (List.zipWith (· * ·) c v) := by
  induction c generalizing v with
  | nil => rfl
  | cons x c ih =>
    cases v with
    | nil => simp at h
    | cons y v =>
      simp only [products]
      rw [ih v (by simpa using h)]
      rfl

theorem powersOf_ok {es : List (Exc K)} {ps : List (List K)} (h : HavePowers es ps) (setting : Nat) :
    powersOf setting es = .ok (.powers ps) := by
  induction h with
  | nil => rfl
  | cons hc hv hcw hvw hlen hne hp rest ih =>
    simp only [powersOf, hc, hv, hcw, hvw, powerOf]
    rw [if_neg (by rw [hlen]; simp), products_ok _ _ hlen]
    simp only [Res.bind]
    rw [if_neg, ih]
    · simp only [Res.bind, hp]
    · intro he
      rw [List.zipWith_eq_nil_iff] at he
      rcases he with he | he
      · exact hne he
      · rw [he] at hlen; exact hne (List.length_eq_zero_iff.mp hlen)

theorem largestPower_unique {powers : List (List K)} {m n : K} (hm : LargestPower powers m)
    (hn : LargestPower powers n) : m = n := by
  obtain ⟨m0, mb, mw⟩ := hm
  obtain ⟨n0, nb, nw⟩ := hn
  apply le_antisymm
  · rcases mw with e | ⟨p, hp, hx⟩
    · rw [e]; exact n0
    · exact nb p hp m hx
  · rcases nw with e | ⟨p, hp, hx⟩
    · rw [e]; exact m0
    · exact mb p hp n hx

theorem foldl_max_spec (l : List K) : ∀ z : K, z ≤ l.foldl max z ∧ (∀ x ∈ l, x ≤ l.foldl max z) ∧
    (l.foldl max z = z ∨ l.foldl max z ∈ l) := by
  induction l with
  | nil => intro z; simp
  | cons a l ih =>
    intro z
    simp only [List.foldl_cons]
    obtain ⟨h1, h2, h3⟩ := ih (max z a)
    refine ⟨(le_max_left z a).trans h1, ?_, ?_⟩
    · intro x hx
      rcases List.mem_cons.mp hx with rfl | hx
      · exact (le_max_right z x).trans h1
      · exact h2 x hx
    · rcases h3 with h3 | h3
      · rcases max_choice z a with hm | hm
        · left; rw [h3, hm]
        · right; rw [h3, hm]; simp
      · right; exact List.mem_cons_of_mem _ h3

theorem maximumPower_spec (powers : List (List K)) : LargestPower powers (maximumPower powers) := by
  obtain ⟨h1, h2, h3⟩ := foldl_max_spec powers.flatten 0
  refine ⟨h1, ?_, ?_⟩
  · intro p hp x hx
    exact h2 x (List.mem_flatten.mpr ⟨p, hp, hx⟩)
  · rcases h3 with h3 | h3
    · exact Or.inl h3
    · right
      obtain ⟨p, hp, hx⟩ := List.mem_flatten.mp h3
      exact ⟨p, hp, hx⟩

/-- With all windings as long, the loop over the windings at a point tells whether two differ. -/
theorem differAt_spec (threshold : K) (i : Nat) (n : Nat) (hi : i < n) (powers : List (List K))
    (hlen : ∀ p ∈ powers, p.length = n) :
    ∃ b, differAt threshold i powers = .ok b ∧ (b = true ↔ ∃ p ∈ powers, ∃ q ∈ powers, ∃ x y : K,
      p[i]? = some x ∧ q[i]? = some y ∧ threshold < |x| ∧ |y| ≤ threshold) := by
  induction powers with
  | nil => exact ⟨false, rfl, by simp⟩
  | cons p ps ih =>
    cases ps with
    | nil =>
      refine ⟨false, rfl, ?_⟩
      simp only [List.mem_singleton, exists_eq_left, Bool.false_eq_true, false_iff]
      rintro ⟨x, y, hx, hy, h1, h2⟩
      rw [hx] at hy
      simp only [Option.some.injEq] at hy
      rw [hy] at h1
      exact absurd h2 (not_le.mpr h1)
    | cons q ps =>
      obtain ⟨b, hb, hiff⟩ := ih (fun r hr => hlen r (List.mem_cons_of_mem _ hr))
      have hp : i < p.length := by rw [hlen p (by simp)]; exact hi
      have hq : i < q.length := by rw [hlen q (by simp)]; exact hi
      have ep : p[i]? = some p[i] := List.getElem?_eq_getElem hp
      have eq : q[i]? = some q[i] := List.getElem?_eq_getElem hq
      simp only [differAt, ep, eq]
      by_cases hd : (decide (|p[i]| > threshold) != decide (|q[i]| > threshold)) = true
      · rw [if_pos hd]
        refine ⟨true, rfl, ?_⟩
        simp only [true_iff]
        by_cases h1 : |p[i]| > threshold
        · have h2 : ¬ |q[i]| > threshold := by
            intro h2; simp [h1, h2] at hd
          exact ⟨p, by simp, q, by simp, _, _, ep, eq, h1, not_lt.mp h2⟩
        · have h2 : |q[i]| > threshold := by
            by_contra h2
            simp [not_lt.mp h1, not_lt.mp h2, not_lt.mpr (not_lt.mp h1), not_lt.mpr (not_lt.mp h2)] at hd
          exact ⟨q, by simp, p, by simp, _, _, eq, ep, h2, not_lt.mp h1⟩
      · rw [if_neg hd]
        refine ⟨b, hb, hiff.trans ?_⟩
        have hsame : threshold < |p[i]| ↔ threshold < |q[i]| := by
          simp only [bne_iff_ne, ne_eq, not_not, decide_eq_decide] at hd
          exact hd
        constructor
        · rintro ⟨r, hr, s, hs, rest⟩
          exact ⟨r, List.mem_cons_of_mem _ hr, s, List.mem_cons_of_mem _ hs, rest⟩
        · rintro ⟨r, hr, s, hs, x, y, hx, hy, h1, h2⟩
          have move : ∀ r ∈ p :: q :: ps, ∀ x, r[i]? = some x →
              ∃ r' ∈ q :: ps, ∃ x', r'[i]? = some x' ∧ (threshold < |x| ↔ threshold < |x'|) := by
            intro r hr x hx
            rcases List.mem_cons.mp hr with rfl | hr
            · rw [ep] at hx
              simp only [Option.some.injEq] at hx
              exact ⟨q, by simp, _, eq, by rw [← hx]; exact hsame⟩
            · exact ⟨r, hr, x, hx, Iff.rfl⟩
          obtain ⟨r', hr', x', hx', e1⟩ := move r hr x hx
          obtain ⟨s', hs', y', hy', e2⟩ := move s hs y hy
          exact ⟨r', hr', s', hs', x', y', hx', hy', e1.mp h1, not_lt.mp (fun h => not_lt.mpr h2 (e2.mpr h))⟩

theorem differing_spec (threshold : K) (n : Nat) (powers : List (List K)) (hlen : ∀ p ∈ powers, p.length = n)
    (P : Nat → Prop) [DecidablePred P]
    (hP : ∀ i, P i ↔ ∃ p ∈ powers, ∃ q ∈ powers, ∃ x y : K,
      p[i]? = some x ∧ q[i]? = some y ∧ threshold < |x| ∧ |y| ≤ threshold) :
    ∀ is : List Nat, (∀ i ∈ is, i < n) → differing threshold powers is = .ok (is.filter P).length := by
  intro is
  induction is with
  | nil => intro _; rfl
  | cons i is ih =>
    intro h
    obtain ⟨b, hb, hiff⟩ := differAt_spec threshold i n (h i (by simp)) powers hlen
    simp only [differing]
    rw [hb, ih (fun j hj => h j (List.mem_cons_of_mem _ hj))]
    simp only [Res.bind]
    by_cases hp : P i
    · have : b = true := hiff.mpr ((hP i).mp hp)
      rw [if_pos this, List.filter_cons_of_pos (by simpa using hp)]
      rfl
    · have : b ≠ true := fun hx => hp ((hP i).mpr (hiff.mp hx))
      rw [if_neg this, List.filter_cons_of_neg (by simpa using hp)]

/-! ## The offset of the magnetizing current -/

/-- **C240.** With all windings described by as many points each, they are found to conduct at the same time exactly
when at most a tenth of the points is mixed: some windings with more than a hundredth of the largest power, and some
without. -/
theorem conducting_spec (setting : Nat) (windings : List (Exc K)) (powers : List (List K)) (n : Nat) (m : K)
    (h : HavePowers windings powers) (hne : windings ≠ []) (hlen : ∀ p ∈ powers, p.length = n)
    (hm : LargestPower powers m) [DecidablePred (Mixed powers m)] :
    ∃ b, conducting setting windings = .ok b ∧
      (b = true ↔ 10 * ((List.range n).filter (Mixed powers m)).length ≤ n) := by
  unfold conducting
  rw [powersOf_ok h]
  cases powers with
  | nil => cases h; exact absurd rfl hne
  | cons p ps =>
    simp only [Res.bind]
    have hmax : maximumPower (p :: ps) = m := largestPower_unique (maximumPower_spec _) hm
    have hp : p.length = n := hlen p (by simp)
    have e := differing_spec (maximumPower (p :: ps) * (1 / 100)) n (p :: ps) hlen (Mixed (p :: ps) m)
      (by intro i; rw [hmax, show m * (1 / 100) = m / 100 by ring]; exact Iff.rfl) (List.range p.length)
      (by intro i hi; rw [hp] at hi; exact List.mem_range.mp hi)
    rw [e, hp]
    refine ⟨_, rfl, ?_⟩
    simp only [Bool.not_eq_true', decide_eq_false_iff_not, not_lt]
    generalize ((List.range n).filter (Mixed (p :: ps) m)).length = k
    constructor
    · intro hx
      have : (10 : K) * (k : K) ≤ (n : K) := by linarith
      exact_mod_cast this
    · intro hx
      have : (10 : K) * (k : K) ≤ (n : K) := by exact_mod_cast hx
      linarith

/-- **C240.** The test on the voltage passes exactly when at most one point in fifty is below a twentieth of the largest
magnitude. -/
theorem rosano_spec (voltage : List K) (m : K) (hm : LargestMagnitude voltage m) :
    rosano voltage = true ↔ 50 * (voltage.filter fun v => 20 * |v| < m).length ≤ voltage.length := by
  have hfold : ∀ (l : List K) (z : K), l.foldl (fun m v => max m |v|) z = (l.map fun v => |v|).foldl max z := by
    intro l
    induction l with
    | nil => intro z; rfl
    | cons a l ih => intro z; simp only [List.foldl_cons, List.map_cons]; exact ih _
  have hmax : voltage.foldl (fun m v => max m |v|) 0 = m := by
    rw [hfold]
    obtain ⟨h1, h2, h3⟩ := foldl_max_spec (voltage.map fun v => |v|) 0
    obtain ⟨⟨x, hx, ex⟩, hb⟩ := hm
    apply le_antisymm
    · rcases h3 with h3 | h3
      · rw [h3, ← ex]; exact abs_nonneg x
      · obtain ⟨y, hy, ey⟩ := List.mem_map.mp h3
        rw [← ey]; exact hb y hy
    · rw [← ex]; exact h2 _ (List.mem_map.mpr ⟨x, hx, rfl⟩)
  unfold rosano
  simp only [Bool.not_eq_true', decide_eq_false_iff_not, not_lt]
  rw [hmax]
  have ef : (voltage.filter fun v => |v| < m * (5 / 100)) = voltage.filter fun v => 20 * |v| < m := by
    apply List.filter_congr
    intro v _
    apply decide_eq_decide.mpr
    constructor <;> intro h <;> linarith
  rw [ef]
  generalize (voltage.filter fun v => 20 * |v| < m).length = k
  constructor
  · intro hx
    have : (50 : K) * (k : K) ≤ (voltage.length : K) := by linarith
    exact_mod_cast this
  · intro hx
    have : (50 : K) * (k : K) ≤ (voltage.length : K) := by exact_mod_cast hx
    linarith

/-- **C240.** The offset is included for a component of one winding, whatever the waveforms; and for one of several
exactly when the voltage of the first winding passes its test and the windings do not conduct at the same time. -/
theorem includeOffset_spec (setting : Nat) (windings : List (Exc K)) (ratios : Nat) (b : Bool)
    (h : includeOffset setting windings ratios = .ok b) :
    (ratios = 0 ∧ windings.length = 1 ∧ b = true) ∨
      ∃ (e : Exc K) (v : Signal K) (w s : Waveform K) (c : Bool), windings.head? = some e ∧ e.voltage = some v ∧
        v.waveform = some w ∧ Waveforms.sampled w e.frequency none setting = .ok s ∧
        conducting setting windings = .ok c ∧ (b = true ↔ rosano s.data = true ∧ c = false) := by
  cases windings with
  | nil => simp [includeOffset] at h
  | cons e es =>
    cases hv : e.voltage with
    | none => simp [includeOffset, hv] at h
    | some v =>
      cases hw : v.waveform with
      | none => simp [includeOffset, hv, hw] at h
      | some w =>
        simp only [includeOffset, hv, hw] at h
        cases hs : Waveforms.sampled w e.frequency none setting with
        | ok s =>
          rw [hs] at h
          simp only [Res.bind] at h
          cases hc : conducting setting (e :: es) with
          | ok c =>
            rw [hc] at h
            simp only [Res.bind, Res.ok.injEq] at h
            by_cases h1 : ratios = 0 ∧ (e :: es).length ≤ 1
            · left
              refine ⟨h1.1, ?_, ?_⟩
              · have := h1.2; simp only [List.length_cons] at this ⊢; omega
              · rw [← h]; simp only [h1.1, h1.2, decide_true, Bool.and_self, Bool.true_or]
            · right
              refine ⟨e, v, w, s, c, rfl, hv, hw, hs, rfl, ?_⟩
              have h2 : (decide (ratios = 0) && decide ((e :: es).length ≤ 1)) = false := by
                rw [Bool.and_eq_false_iff]
                by_cases h3 : ratios = 0
                · right; simp only [decide_eq_false_iff_not]; exact fun hx => h1 ⟨h3, hx⟩
                · left; simp only [decide_eq_false_iff_not]; exact h3
              rw [h2, Bool.false_or] at h
              rw [← h]
              cases c <;> simp
          | throws => rw [hc] at h; simp [Res.bind] at h
          | nan => rw [hc] at h; simp [Res.bind] at h
          | ub => rw [hc] at h; simp [Res.bind] at h
        | throws => rw [hs] at h; simp [Res.bind] at h
        | nan => rw [hs] at h; simp [Res.bind] at h
        | ub => rw [hs] at h; simp [Res.bind] at h

/-- **C240.** Where the first winding has no voltage the decision is undefined, whatever the others have. -/
theorem first_without_voltage (setting : Nat) (e : Exc K) (es : List (Exc K)) (ratios : Nat) (h : e.voltage = none) :
    includeOffset setting (e :: es) ratios = .ub := by
  simp only [includeOffset, h]

/-- **C240.** Where the second winding is described by fewer points than the first, points that are not there are read.
-/
theorem fewer_points_read (setting : Nat) (e f : Exc K) (es : List (Exc K)) (p q : List K) (ps : List (List K))
    (h : HavePowers (e :: f :: es) (p :: q :: ps)) (hlt : q.length < p.length) :
    conducting setting (e :: f :: es) = .ub := by
  unfold conducting
  rw [powersOf_ok h]
  simp only [Res.bind]
  have hcol : ∀ t : K, differAt t q.length (p :: q :: ps) = .ub := by
    intro t
    simp only [differAt]
    rw [List.getElem?_eq_getElem hlt, List.getElem?_eq_none (le_refl q.length)]
  have hany : ∀ (t : K) (is : List Nat), q.length ∈ is → (∀ i ∈ is, ∀ x, differAt t i (p :: q :: ps) = x →
      x = .ub ∨ ∃ b, x = .ok b) → differing t (p :: q :: ps) is = .ub := by
    intro t is
    induction is with
    | nil => intro h; simp at h
    | cons i is ih =>
      intro hm hres
      simp only [differing]
      rcases hres i (by simp) _ rfl with hu | ⟨b, hb⟩
      · rw [hu]; rfl
      · rw [hb]
        simp only [Res.bind]
        rcases List.mem_cons.mp hm with hq | hm
        · rw [← hq, hcol] at hb; simp at hb
        · rw [ih hm (fun j hj => hres j (List.mem_cons_of_mem _ hj))]
  have hok : ∀ (t : K) (i : Nat) (l : List (List K)), differAt t i l = .ub ∨ ∃ b, differAt t i l = .ok b := by
    intro t i l
    induction l with
    | nil => exact Or.inr ⟨false, rfl⟩
    | cons a l ih =>
      cases l with
      | nil => exact Or.inr ⟨false, rfl⟩
      | cons b l =>
        simp only [differAt]
        cases a[i]? with
        | none => exact Or.inl rfl
        | some x =>
          cases b[i]? with
          | none => exact Or.inl rfl
          | some y =>
            simp only
            by_cases hd : (decide (|x| > t) != decide (|y| > t)) = true
            · rw [if_pos hd]; exact Or.inr ⟨true, rfl⟩
            · rw [if_neg hd]; exact ih
  rw [hany _ _ (List.mem_range.mpr hlt) (by
    intro i _ x hx
    rcases hok (maximumPower (p :: q :: ps) * (1 / 100)) i (p :: q :: ps) with h | ⟨b, h⟩
    · exact Or.inl (hx.symm.trans h)
    · exact Or.inr ⟨b, hx.symm.trans h⟩)]

/-- A winding with a current and a voltage, of the points given. -/
def winding (c v : List ℚ) : Exc ℚ :=
  { frequency := 1, voltage := some ⟨some ⟨v, none, none⟩, none, none⟩,
    current := some ⟨some ⟨c, none, none⟩, none, none⟩, magnetizing := none }

/-- **C240.** The first winding with a rectangular voltage and a flyback current, five points each, the second with
three points each: what is read is not there. -/
theorem five_and_three : conducting 128
    [winding [0, 1, 2, 0, 0] [-1, 1, 1, -1, -1], winding [1, 2, 1] [1, 2, 1]] = .ub := by
  decide +kernel

example : conducting 128 [winding [0, 1, 2, 0, 0] [-1, 1, 1, -1, -1], winding [0, 0, 2, 1, 0] [1, -1, -1, 1, 1]]
    = .ok false := by decide +kernel
example : conducting 128 [winding [1, 1, 2, 1, 1] [-1, 1, 1, -1, -1], winding [2, 2, 2, 1, 2] [1, -1, -1, 1, 1]]
    = .ok true := by decide +kernel
example : rosano (K := ℚ) [1, 1, -1, -1] = true := by decide +kernel
example : rosano (K := ℚ) [1, 0, -1, 0] = false := by decide +kernel

/-! ## What the currents are those of -/

theorem harmonicsAgree_spec (l m : List (K × K)) (h : l.length = m.length) :
    ∃ b, harmonicsAgree l m = .ok b ∧ (b = true ↔ Agree l m) := by
  induction l generalizing m with
  | nil =>
    cases m with
    | nil => exact ⟨true, rfl, by simp [Agree]⟩
    | cons y m => simp at h
  | cons x l ih =>
    cases m with
    | nil => simp at h
    | cons y m =>
      obtain ⟨f, a⟩ := x
      obtain ⟨g, c⟩ := y
      obtain ⟨b, hb, hiff⟩ := ih m (by simpa using h)
      simp only [harmonicsAgree, Agree, List.forall₂_cons]
      by_cases h1 : closeEnough f g (1 / 10000)
      · rw [if_neg (not_not.mpr h1)]
        by_cases h2 : closeEnough a c (1 / 10000)
        · rw [if_neg (not_not.mpr h2)]
          refine ⟨b, hb, hiff.trans ⟨fun hx => ⟨⟨h1, h2⟩, hx⟩, fun hx => hx.2⟩⟩
        · rw [if_pos h2]
          exact ⟨false, rfl, by simp only [Bool.false_eq_true, false_iff]; exact fun hx => h2 hx.1.2⟩
      · rw [if_pos h1]
        exact ⟨false, rfl, by simp only [Bool.false_eq_true, false_iff]; exact fun hx => h1 hx.1.1⟩

/-- The harmonics of the current of a winding. -/
def harmonicsOf (e : Exc K) : Option (Harmonics K) := e.current.bind fun c => c.harmonics

theorem allHarmonicsAgree_spec (p : Harmonics K) (es : List (Exc K))
    (h : ∀ e ∈ es, ∃ q : Harmonics K, harmonicsOf e = some q ∧ p.bins.length = q.bins.length) :
    ∃ b, allHarmonicsAgree p es = .ok b ∧
      (b = true ↔ ∀ e ∈ es, ∀ q, harmonicsOf e = some q → Agree p.bins q.bins) := by
  induction es with
  | nil => exact ⟨true, rfl, by simp⟩
  | cons e es ih =>
    obtain ⟨q, hq, hl⟩ := h e (by simp)
    obtain ⟨b, hb, hiff⟩ := ih (fun e he => h e (List.mem_cons_of_mem _ he))
    obtain ⟨a, ha, haiff⟩ := harmonicsAgree_spec p.bins q.bins hl
    have hc : ∃ c : Signal K, e.current = some c ∧ c.harmonics = some q := by
      unfold harmonicsOf at hq
      cases hc : e.current with
      | none => rw [hc] at hq; simp at hq
      | some c => rw [hc] at hq; exact ⟨c, rfl, by simpa using hq⟩
    obtain ⟨c, hc1, hc2⟩ := hc
    simp only [allHarmonicsAgree, hc1, hc2]
    rw [ha]
    simp only [Res.bind]
    by_cases hat : a = true
    · rw [if_pos hat]
      refine ⟨b, hb, hiff.trans ?_⟩
      simp only [List.mem_cons, forall_eq_or_imp]
      constructor
      · intro hx
        refine ⟨fun q' hq' => ?_, hx⟩
        rw [hq] at hq'
        simp only [Option.some.injEq] at hq'
        rw [← hq']; exact haiff.mp hat
      · intro hx; exact hx.2
    · rw [if_neg hat]
      refine ⟨false, rfl, ?_⟩
      simp only [Bool.false_eq_true, false_iff]
      intro hx
      exact hat (haiff.mpr (hx e (by simp) q hq))

theorem allRmsAgree_spec (r : K) (es : List (Exc K)) :
    allRmsAgree r es = true ↔ ∀ e ∈ es, ∃ s, rmsOf e = some s ∧ |r - s| ≤ r / 20 := by
  induction es with
  | nil => simp [allRmsAgree]
  | cons e es ih =>
    simp only [allRmsAgree, List.mem_cons, forall_eq_or_imp]
    cases hs : rmsOf e with
    | none => simp
    | some s =>
      simp only [Option.some.injEq, exists_eq_left']
      rw [show (5 : K) / 100 * r = r / 20 by ring]
      by_cases hc : closeEnough r s (r / 20)
      · rw [if_neg (not_not.mpr hc), ih]
        exact ⟨fun hx => ⟨hc, hx⟩, fun hx => hx.2⟩
      · rw [if_pos hc]
        simp only [Bool.false_eq_true, false_iff]
        exact fun hx => hc hx.1

/-- **C241.** With as many harmonics in every winding, the currents are taken for those of a common mode choke exactly
when there are two, three or four windings and the harmonics of the others all agree with those of the first, or
their effective values are all within a twentieth of that of the first. -/
theorem commonMode_spec (first : Exc K) (others : List (Exc K)) (p : Harmonics K) (hp : harmonicsOf first = some p)
    (h : ∀ e ∈ others, ∃ q : Harmonics K, harmonicsOf e = some q ∧ p.bins.length = q.bins.length) :
    ∃ b, commonMode (first :: others) = .ok b ∧ (b = true ↔ (1 ≤ others.length ∧ others.length ≤ 3) ∧
      ((∀ e ∈ others, ∀ q, harmonicsOf e = some q → Agree p.bins q.bins) ∨
        ∃ r, rmsOf first = some r ∧ ∀ e ∈ others, ∃ s, rmsOf e = some s ∧ |r - s| ≤ r / 20)) := by
  unfold commonMode
  by_cases hn : (first :: others).length < 2 ∨ (first :: others).length > 4
  · rw [if_pos hn]
    refine ⟨false, rfl, ?_⟩
    simp only [Bool.false_eq_true, false_iff]
    rintro ⟨⟨h1, h2⟩, -⟩
    simp only [List.length_cons] at hn
    omega
  · rw [if_neg hn]
    simp only [List.length_cons] at hn
    have hc : ∃ c : Signal K, first.current = some c ∧ c.harmonics = some p := by
      unfold harmonicsOf at hp
      cases hc : first.current with
      | none => rw [hc] at hp; simp at hp
      | some c => rw [hc] at hp; exact ⟨c, rfl, by simpa using hp⟩
    obtain ⟨c, hc1, hc2⟩ := hc
    obtain ⟨b, hb, hiff⟩ := allHarmonicsAgree_spec p others h
    simp only [hc1, hc2]
    rw [hb]
    simp only [Res.bind]
    have hlen : 1 ≤ others.length ∧ others.length ≤ 3 := by omega
    by_cases hbt : b = true
    · rw [if_pos hbt]
      exact ⟨true, rfl, by simp only [true_iff]; exact ⟨hlen, Or.inl (hiff.mp hbt)⟩⟩
    · rw [if_neg hbt]
      refine ⟨_, rfl, ?_⟩
      have hno := fun hx => hbt (hiff.mpr hx)
      unfold byRms
      cases hr : rmsOf first with
      | none =>
        simp only [Bool.false_eq_true, false_iff, reduceCtorEq, false_and, exists_false, or_false]
        exact fun hx => hno hx.2
      | some r =>
        simp only [Option.some.injEq, exists_eq_left']
        rw [allRmsAgree_spec]
        exact ⟨fun hx => ⟨hlen, Or.inr hx⟩, fun hx => hx.2.resolve_left hno⟩

/-- **C241.** Without harmonics in the first winding only the effective values count. -/
theorem commonMode_by_rms (first : Exc K) (others : List (Exc K)) (c : Signal K) (hc : first.current = some c)
    (hh : c.harmonics = none) (hn : 1 ≤ others.length ∧ others.length ≤ 3) :
    ∃ b, commonMode (first :: others) = .ok b ∧ (b = true ↔
      ∃ r, rmsOf first = some r ∧ ∀ e ∈ others, ∃ s, rmsOf e = some s ∧ |r - s| ≤ r / 20) := by
  unfold commonMode
  rw [if_neg (by simp only [List.length_cons]; omega)]
  simp only [hc, hh]
  refine ⟨_, rfl, ?_⟩
  unfold byRms
  cases hr : rmsOf first with
  | none => simp
  | some r => simp only [Option.some.injEq, exists_eq_left']; rw [allRmsAgree_spec]

/-- A current of the effective value given, without harmonics. -/
def withRms (r : ℚ) : Exc ℚ :=
  { frequency := 1000, voltage := none, magnetizing := none,
    current := some ⟨none, none, some ⟨.custom, 0, none, none, some r, none⟩⟩ }

/-- A current of the harmonics given, without more. -/
def withHarmonics (h : Option (Harmonics ℚ)) : Exc ℚ :=
  { frequency := 1000, voltage := none, magnetizing := none, current := some ⟨none, h, none⟩ }

/-- **C241.** Which winding comes first makes a difference: 100 A and 95 A are a choke, 95 A and 100 A are not. -/
theorem choke_depends_on_order :
    commonMode [withRms 100, withRms 95] = .ok true ∧ commonMode [withRms 95, withRms 100] = .ok false := by
  decide +kernel

/-- **C241.** A winding whose current has no harmonics is taken to agree with the first, whatever its effective value.
-/
theorem without_harmonics_agrees : commonMode
    [{ withRms 100 with current := some ⟨none, some ⟨[0, 5], [0, 1000]⟩, some ⟨.custom, 0, none, none, some 100, none⟩⟩ },
      withRms 1] = .ok true := by
  decide +kernel

/-- **C241.** A winding with fewer harmonics than the first, all of which agree, is read past its end. -/
theorem fewer_harmonics_read : commonMode [withHarmonics (some ⟨[0, 5, 1], [0, 1000, 2000]⟩),
    withHarmonics (some ⟨[0, 5], [0, 1000]⟩)] = .ub := by
  decide +kernel

/-- **C241.** With the topology stated, a differential mode choke has from two to four windings; without, it is never
one. -/
theorem differentialMode_spec (t : Bool) (windings : List (Exc K)) :
    differentialMode t windings = true ↔ t = true ∧ 2 ≤ windings.length ∧ windings.length ≤ 4 := by
  simp [differentialMode]

/-- **C241.** Several windings are those of a multiport inductor exactly when all are on the same side of the isolation,
or the current of the first is that of a flyback and no other winding is on the side of the first. -/
theorem multiport_spec {S : Type} [DecidableEq S] (first second : Exc K) (others : List (Exc K)) (s : S) (ss : List S)
    (c : Signal K) (hc : first.current = some c) :
    ∃ b, multiport (first :: second :: others) (some (s :: ss)) = .ok b ∧ (b = true ↔
      (∀ x ∈ ss, x = s) ∨
        (((∃ w l, c.waveform = some w ∧ w.label = some l ∧ (l = .flybackPrimary ∨ l = .flybackSecondary)) ∨
          (∃ p, c.processed = some p ∧ (p.label = .flybackPrimary ∨ p.label = .flybackSecondary))) ∧
          ∀ x ∈ ss, x ≠ s)) := by
  have hlab : flybackLabel c = true ↔
      ((∃ w l, c.waveform = some w ∧ w.label = some l ∧ (l = .flybackPrimary ∨ l = .flybackSecondary)) ∨
        (∃ p, c.processed = some p ∧ (p.label = .flybackPrimary ∨ p.label = .flybackSecondary))) := by
    unfold flybackLabel isFlyback
    rw [Bool.or_eq_true]
    apply or_congr
    · cases c.waveform with
      | none => simp
      | some w => cases hl : w.label <;> simp [hl]
    · cases c.processed <;> simp
  simp only [multiport]
  by_cases hs : (ss.all fun x => s = x) = true
  · rw [if_pos hs]
    refine ⟨true, rfl, ?_⟩
    simp only [true_iff]
    left
    intro x hx
    simp only [List.all_eq_true, decide_eq_true_eq] at hs
    exact (hs x hx).symm
  · rw [if_neg hs, hc]
    have hns : ¬ ∀ x ∈ ss, x = s := by
      intro hx
      apply hs
      simp only [List.all_eq_true, decide_eq_true_eq]
      exact fun x h => (hx x h).symm
    simp only
    by_cases hf : flybackLabel c = true
    · rw [if_pos hf]
      refine ⟨_, rfl, ?_⟩
      simp only [Bool.not_eq_true', List.any_eq_false, decide_eq_true_eq]
      constructor
      · intro hx; exact Or.inr ⟨hlab.mp hf, hx⟩
      · intro hx; exact (hx.resolve_left hns).2
    · rw [if_neg hf]
      refine ⟨false, rfl, ?_⟩
      simp only [Bool.false_eq_true, false_iff]
      rintro (hx | hx)
      · exact hns hx
      · exact hf (hlab.mpr hx.1)

/-- **C241.** One winding is never a multiport inductor; several whose first has no current are undefined unless the
sides of the isolation settle it. -/
theorem multiport_edges {S : Type} [DecidableEq S] (first second : Exc K) (others : List (Exc K))
    (sides : Option (List S)) :
    multiport [first] sides = .ok false ∧
      (first.current = none → sides = none → multiport (first :: second :: others) sides = .ub) := by
  refine ⟨rfl, ?_⟩
  intro h1 h2
  rw [h2]
  simp only [multiport, h1]
  rfl

example : multiport (S := Nat) [{ withRms 1 with
    current := some ⟨none, none, some ⟨.flybackPrimary, 0, none, none, some 1, none⟩⟩ }, withRms 1] (some [0, 1])
    = .ok true := by decide +kernel
example : multiport (S := Nat) [{ withRms 1 with
    current := some ⟨none, none, some ⟨.flybackPrimary, 0, none, none, some 1, none⟩⟩ }, withRms 1, withRms 1]
    (some [0, 1, 0]) = .ok false := by decide +kernel

end Verif.Excitation
