import Verif.Combinator.Model
import Mathlib.Algebra.Order.Field.Rat
import Mathlib.Data.Rat.Cast.Order
import Mathlib.Data.List.Nodup
import Mathlib.Tactic.Linarith
import Mathlib.Tactic.FieldSimp
import Mathlib.Tactic.Ring
import Mathlib.Tactic.Positivity

/-!
# Combinations of windings: C222–C227
-/

set_option linter.unusedSimpArgs false
set_option linter.unusedSectionVars false

namespace Verif.Combinator

/-! ## Specification -/

/-- A circuit of windings. -/
inductive Circuit where
  | one (i : ℕ)
  | series (a b : Circuit)
  | parallel (a b : Circuit)

/-- The windings of a circuit. -/
def Circuit.windings : Circuit → List ℕ
  | .one i => [i]
  | .series a b => a.windings ++ b.windings
  | .parallel a b => a.windings ++ b.windings

/-- The turns of a circuit, seen from outside: those in series add up. -/
def Circuit.turns (ws : List Winding) : Circuit → ℕ
  | .one i => (ws[i]?.map Winding.turns).getD 0
  | .series a b => a.turns ws + b.turns ws
  | .parallel a _ => a.turns ws

/-- The parallel wires of a circuit: those in parallel add up. -/
def Circuit.parallels (ws : List Winding) : Circuit → ℕ
  | .one i => (ws[i]?.map Winding.parallels).getD 0
  | .series a b => max (a.parallels ws) (b.parallels ws)
  | .parallel a b => a.parallels ws + b.parallels ws

/-- Only equal turns are in parallel. -/
def Circuit.Balanced (ws : List Winding) : Circuit → Prop
  | .one _ => True
  | .series a b => a.Balanced ws ∧ b.Balanced ws
  | .parallel a b => a.Balanced ws ∧ b.Balanced ws ∧ a.turns ws = b.turns ws

/-- Whether a circuit is two in parallel. -/
def Circuit.isParallel : Circuit → Bool
  | .parallel _ _ => true
  | _ => false

/-- A combination is what a circuit of the windings of the coil makes: each winding once, all of the same side, not several auxiliaries or
shields, and equal turns in parallel. -/
structure Describes (ws : List Winding) (t : Circuit) (c : Comb) : Prop where
  indexes : c.indexes = t.windings
  nodup : t.windings.Nodup
  sides : ∀ i ∈ t.windings, ∃ w, ws[i]? = some w ∧ w.side = c.side
  turns : c.turns = t.turns ws
  parallels : c.parallels = t.parallels ws
  balanced : t.Balanced ws
  kind : c.isParallel = t.isParallel
  single : c.side = .tertiary ∨ c.side = .quaternary → ∃ i, t = .one i

/-! ## Lemmas -/

theorem windings_pos (t : Circuit) : t.windings ≠ [] := by
  induction t with
  | one i => simp [Circuit.windings]
  | series a b iha _ => simp [Circuit.windings, iha]
  | parallel a b iha _ => simp [Circuit.windings, iha]

theorem repeated_false {l r : List ℕ} (h : repeated l r = false) : l.Disjoint r := by
  intro i h1 h2
  simp only [repeated, List.any_eq_false] at h
  exact h i h1 (by simpa using h2)

/-- The pairs that are combined. -/
theorem mem_combineFrom {all : List Comb} {limit : ℕ} {c : Comb} (l : List Comb) : ∀ i, c ∈ combineFrom all limit i l →
    ∃ j a b, l[j]? = some a ∧ [a, b].Sublist l ∧ c ∈ joined all limit (i + j) a b := by
  induction l with
  | nil => intro i h; exact absurd h (by simp [combineFrom])
  | cons x rest ih =>
    intro i h
    simp only [combineFrom, List.mem_append, List.mem_flatMap] at h
    rcases h with ⟨b, hb, hc⟩ | h
    · exact ⟨0, x, b, by simp, by simpa using hb, by simpa using hc⟩
    · obtain ⟨j, a, b, h1, h2, h3⟩ := ih (i + 1) h
      exact ⟨j + 1, a, b, by simpa using h1, h2.cons _, by rw [show i + (j + 1) = i + 1 + j by omega]; exact h3⟩

/-- What a pair needs to be combined, and to what. -/
theorem mem_joined {all : List Comb} {limit i : ℕ} {a b c : Comb} (h : c ∈ joined all limit i a b) :
    a.indexes.Disjoint b.indexes ∧ a.side = b.side ∧ a.side ≠ .tertiary ∧ a.side ≠ .quaternary ∧
      (compulsory all i a = [] ∨ b.name ∈ compulsory all i a) ∧
      ((c = series a b ∧ a.indexes.length + b.indexes.length ≤ limit) ∨ (c = parallel a b ∧ a.turns = b.turns ∧ b.isParallel = false)) := by
  unfold joined at h
  by_cases h1 : repeated a.indexes b.indexes = true
  · rw [if_pos h1] at h; exact absurd h (by simp)
  rw [if_neg h1] at h
  by_cases h2 : a.side ≠ b.side
  · rw [if_pos h2] at h; exact absurd h (by simp)
  rw [if_neg h2] at h
  by_cases h3 : a.side = .tertiary ∨ b.side = .tertiary
  · rw [if_pos h3] at h; exact absurd h (by simp)
  rw [if_neg h3] at h
  by_cases h4 : a.side = .quaternary ∨ b.side = .quaternary
  · rw [if_pos h4] at h; exact absurd h (by simp)
  rw [if_neg h4] at h
  by_cases h5 : compulsory all i a ≠ [] ∧ ¬ b.name ∈ compulsory all i a
  · rw [if_pos h5] at h; exact absurd h (by simp)
  rw [if_neg h5] at h
  refine ⟨repeated_false (by simpa using h1), not_not.mp h2, fun e => h3 (Or.inl e), fun e => h4 (Or.inl e), ?_, ?_⟩
  · by_contra hn
    push Not at hn
    exact h5 hn
  · rcases List.mem_append.mp h with h | h
    · by_cases h6 : a.indexes.length + b.indexes.length ≤ limit
      · rw [if_pos h6] at h; exact Or.inl ⟨by simpa using h, h6⟩
      · rw [if_neg h6] at h; exact absurd h (by simp)
    · by_cases h6 : a.turns = b.turns ∧ b.isParallel = false ∧ b.isParallel = false
      · rw [if_pos h6] at h; exact Or.inr ⟨by simpa using h, h6.1, h6.2.1⟩
      · rw [if_neg h6] at h; exact absurd h (by simp)

/-- What holds of all of a list and is kept by combining holds at every level. -/
theorem levels_invariant {P : List Comb → Prop} (limit : ℕ) (hstep : ∀ cs, P cs → P (cs ++ combine cs limit)) (n : ℕ) :
    ∀ cs, P cs → P (levels limit n cs) := by
  induction n with
  | zero => intro cs h; exact h
  | succ n ih => intro cs h; exact ih _ (hstep cs h)

theorem describes_alone {ws : List Winding} {i : ℕ} {w : Winding} (h : ws[i]? = some w) : Describes ws (.one i) (alone i w) where
  indexes := rfl
  nodup := by simp [Circuit.windings]
  sides := by
    intro j hj
    simp only [Circuit.windings, List.mem_singleton] at hj
    subst hj
    exact ⟨w, h, rfl⟩
  turns := by simp [Circuit.turns, h, alone]
  parallels := by simp [Circuit.parallels, h, alone]
  balanced := trivial
  kind := rfl
  single := fun _ => ⟨i, rfl⟩

theorem describes_pair {ws : List Winding} {s t : Circuit} {a b : Comb} (ha : Describes ws s a) (hb : Describes ws t b)
    (hd : a.indexes.Disjoint b.indexes) (hside : a.side = b.side) (h3 : a.side ≠ .tertiary) (h4 : a.side ≠ .quaternary) :
    Describes ws (.series s t) (series a b) ∧ (a.turns = b.turns → Describes ws (.parallel s t) (parallel a b)) := by
  have hnd : (s.windings ++ t.windings).Nodup := by
    rw [List.nodup_append]
    refine ⟨ha.nodup, hb.nodup, fun x hx y hy hxy => ?_⟩
    rw [ha.indexes, hb.indexes] at hd
    subst hxy
    exact hd hx hy
  have hsides : ∀ i ∈ s.windings ++ t.windings, ∃ w, ws[i]? = some w ∧ w.side = a.side := by
    intro i hi
    rcases List.mem_append.mp hi with hi | hi
    · exact ha.sides i hi
    · rw [hside]; exact hb.sides i hi
  refine ⟨⟨by simp [series, Circuit.windings, ha.indexes, hb.indexes], hnd, hsides, by simp [series, Circuit.turns, ha.turns, hb.turns],
      by simp [series, Circuit.parallels, ha.parallels, hb.parallels], ⟨ha.balanced, hb.balanced⟩, rfl, fun h => ?_⟩,
    fun hturns => ⟨by simp [parallel, Circuit.windings, ha.indexes, hb.indexes], hnd, hsides, by simp [parallel, Circuit.turns, ha.turns],
      by simp [parallel, Circuit.parallels, ha.parallels, hb.parallels], ⟨ha.balanced, hb.balanced, by rw [← ha.turns, ← hb.turns, hturns]⟩, rfl,
      fun h => ?_⟩⟩
  · rcases h with h | h
    · exact absurd h h3
    · exact absurd h h4
  · rcases h with h | h
    · exact absurd h h3
    · exact absurd h h4

theorem zipIdx_alone {ws : List Winding} {c : Comb} (h : c ∈ ws.zipIdx.map (fun w => alone w.2 w.1)) : ∃ i w, ws[i]? = some w ∧ c = alone i w := by
  obtain ⟨⟨w, i⟩, hw, rfl⟩ := List.mem_map.mp h
  exact ⟨i, w, List.mem_zipIdx_iff_getElem?.mp hw, rfl⟩

/-! ## C222: combinations -/

/-- **C222.** Every combination is a circuit of windings of the coil: each at most once, all of one side, none of several auxiliaries or shields;
turns in series added, and only equal turns in parallel, whose wires are added. -/
theorem combinations_sound (ws : List Winding) (desired : ℕ) : ∀ c ∈ combinations ws desired, ∃ t, Describes ws t c := by
  unfold combinations
  by_cases h : ws.length < desired
  · rw [if_pos h]; intro c hc; exact absurd hc (by simp)
  rw [if_neg h]
  refine levels_invariant (P := fun cs => ∀ c ∈ cs, ∃ t, Describes ws t c) _ ?_ _ _ ?_
  · intro cs hcs c hc
    rcases List.mem_append.mp hc with hc | hc
    · exact hcs c hc
    · obtain ⟨j, a, b, _, hab, hj⟩ := mem_combineFrom cs 0 hc
      obtain ⟨s, hs⟩ := hcs a (hab.subset (by simp))
      obtain ⟨t, ht⟩ := hcs b (hab.subset (by simp))
      obtain ⟨hd, hside, h3, h4, _, hk⟩ := mem_joined hj
      have hp := describes_pair hs ht hd hside h3 h4
      rcases hk with ⟨rfl, _⟩ | ⟨rfl, hturns, _⟩
      · exact ⟨_, hp.1⟩
      · exact ⟨_, hp.2 hturns⟩
  · intro c hc
    obtain ⟨i, w, hw, rfl⟩ := zipIdx_alone hc
    exact ⟨_, describes_alone hw⟩

/-- **C222.** The windings on their own are all there, and series circuits leave as many windings as are needed besides.-/
theorem alone_there (ws : List Winding) (desired i : ℕ) (w : Winding) (hd : desired ≤ ws.length) (hw : ws[i]? = some w) :
    alone i w ∈ combinations ws desired := by
  unfold combinations
  rw [if_neg (by omega)]
  refine levels_invariant (P := fun cs => alone i w ∈ cs) _ (fun cs h => List.mem_append_left _ h) _ _ ?_
  exact List.mem_map.mpr ⟨(w, i), List.mem_zipIdx_iff_getElem?.mpr hw, rfl⟩

/-- Of two that follow one another, the first is of one winding if the second is. -/
def SinglesFirst (cs : List Comb) : Prop := cs.Pairwise (fun a b => b.indexes.length = 1 → a.indexes.length = 1)

/-- **C222.** Three windings of the same turns never come to be in parallel: of windings with the same turns, no combination with these turns
has more than two. -/
theorem no_three_in_parallel (ws : List Winding) (desired n : ℕ) (hn : 0 < n) (hw : ∀ w ∈ ws, w.turns = n) :
    ∀ c ∈ combinations ws desired, c.turns = n → c.indexes.length ≤ 2 := by
  unfold combinations
  by_cases h : ws.length < desired
  · rw [if_pos h]; intro c hc; exact absurd hc (by simp)
  rw [if_neg h]
  have key := levels_invariant (P := fun cs => SinglesFirst cs ∧ ∀ c ∈ cs, c.indexes ≠ [] ∧ n ≤ c.turns ∧
      (c.isParallel = false → c.turns = n → c.indexes.length = 1) ∧ (c.turns = n → c.indexes.length ≤ 2))
    (ws.length - desired + 1) ?_ (min 3 (ws.length - desired)) (ws.zipIdx.map (fun w => alone w.2 w.1)) ?_
  · intro c hc ht
    exact (key.2 c hc).2.2.2 ht
  · rintro cs ⟨hf, hcs⟩
    have hnew : ∀ c ∈ combine cs (ws.length - desired + 1), 2 ≤ c.indexes.length ∧ n ≤ c.turns ∧
        (c.isParallel = false → c.turns = n → c.indexes.length = 1) ∧ (c.turns = n → c.indexes.length ≤ 2) := by
      intro c hc
      obtain ⟨j, a, b, _, hab, hj⟩ := mem_combineFrom cs 0 hc
      have ha := hcs a (hab.subset (by simp))
      have hb := hcs b (hab.subset (by simp))
      have hla := List.length_pos_iff.mpr ha.1
      have hlb := List.length_pos_iff.mpr hb.1
      obtain ⟨_, _, _, _, _, ⟨rfl, _⟩ | ⟨rfl, ht, hk⟩⟩ := mem_joined hj
      · refine ⟨by simp [series]; omega, by simp [series]; omega, fun _ h => ?_, fun h => ?_⟩
        · simp only [series] at h; omega
        · simp only [series] at h; omega
      · refine ⟨by simp [parallel]; omega, by simpa [parallel] using ha.2.1, fun h => by simp [parallel] at h, fun h => ?_⟩
        simp only [parallel] at h
        have h1 : b.indexes.length = 1 := hb.2.2.1 hk (by omega)
        have h2 : a.indexes.length = 1 := (List.pairwise_iff_forall_sublist.mp hf) hab h1
        simp only [parallel, List.length_append]
        omega
    refine ⟨?_, fun c hc => ?_⟩
    · unfold SinglesFirst
      rw [List.pairwise_append]
      refine ⟨hf, ?_, fun a _ b hb h => ?_⟩
      · refine List.pairwise_iff_forall_sublist.mpr (fun {a b} hab h => ?_)
        have := (hnew b (hab.subset (by simp))).1
        omega
      · have := (hnew b hb).1
        omega
    · rcases List.mem_append.mp hc with hc | hc
      · exact hcs c hc
      · have := hnew c hc
        exact ⟨by intro h; rw [h] at this; simp at this, this.2⟩
  · refine ⟨?_, fun c hc => ?_⟩
    · refine List.pairwise_iff_forall_sublist.mpr (fun {a b} hab _ => ?_)
      obtain ⟨i, w, _, rfl⟩ := zipIdx_alone (hab.subset (by simp : a ∈ [a, b]))
      rfl
    · obtain ⟨i, w, hi, rfl⟩ := zipIdx_alone hc
      have := hw w (List.mem_of_getElem? hi)
      simp [alone, this]

/-- A plain winding. -/
def plain (name : String) (turns : ℕ) (side : Side) : Winding := ⟨name, side, turns, 1, none⟩

/-- Case of `combinations_sound` and `alone_there`: two windings alone, in series and in parallel. -/
example : (combinations [plain "a" 10 .primary, plain "b" 10 .primary] 1).map (fun c => (c.name, c.turns, c.parallels, c.indexes, c.isParallel)) =
    [("a", 10, 1, [0], false), ("b", 10, 1, [1], false), ("a-b", 20, 1, [0, 1], false), ("a-b", 10, 2, [0, 1], true)] := by decide +kernel

/-- Case of `no_three_in_parallel`: of three equal windings there are circuits of all three, but not with the turns of one. -/
example : ((combinations [plain "a" 10 .primary, plain "b" 10 .primary, plain "c" 10 .primary] 1).any (fun c => c.indexes.length == 3)) = true ∧
    ((combinations [plain "a" 10 .primary, plain "b" 10 .primary, plain "c" 10 .primary] 1).any
      (fun c => c.indexes.length == 3 && c.turns == 10)) = false := by decide +kernel

/-! ## C223: tapped windings -/

/-- A combination has a pin that is the end of one and the beginning of another one of the list, which is called so. -/
def TappedWith (all : List Comb) (i : ℕ) (a : Comb) (name : String) : Prop :=
  ∃ j o, all[j]? = some o ∧ j ≠ i ∧ o.name = name ∧ ∃ ps qs, a.connections = some ps ∧ o.connections = some qs ∧
    ∃ p ∈ ps, ∃ q ∈ qs, ∃ d pin, p = ⟨some d, some pin⟩ ∧ q = ⟨some (!d), some pin⟩

theorem taps_iff (p q : Pin) : taps p q = true ↔ ∃ d pin, p = ⟨some d, some pin⟩ ∧ q = ⟨some (!d), some pin⟩ := by
  obtain ⟨pd, pn⟩ := p
  obtain ⟨qd, qn⟩ := q
  unfold taps
  constructor
  · intro h
    cases pd <;> cases pn <;> cases qd <;> cases qn <;> simp at h ⊢
    rename_i a b c d
    cases a <;> cases c <;> simp_all
  · rintro ⟨d, pin, h1, h2⟩
    simp only [Pin.mk.injEq] at h1 h2
    obtain ⟨rfl, rfl⟩ := h1
    obtain ⟨rfl, rfl⟩ := h2
    simp

theorem mem_compulsory {all : List Comb} {i : ℕ} {a : Comb} {name : String} : name ∈ compulsory all i a ↔ TappedWith all i a name := by
  unfold compulsory TappedWith
  simp only [List.mem_flatMap]
  constructor
  · rintro ⟨p, hp, ⟨o, j⟩, ho, h⟩
    by_cases hj : j = i
    · simp [hj] at h
    · simp only [hj, if_false, List.mem_map, List.mem_filter] at h
      obtain ⟨q, ⟨hq, ht⟩, rfl⟩ := h
      cases ha : a.connections with
      | none => simp [ha] at hp
      | some ps =>
        cases hc : o.connections with
        | none => simp [hc] at hq
        | some qs =>
          rw [ha] at hp; rw [hc] at hq
          exact ⟨j, o, List.mem_zipIdx_iff_getElem?.mp ho, hj, rfl, ps, qs, rfl, hc, p, hp, q, hq, (taps_iff p q).mp ht⟩
  · rintro ⟨j, o, ho, hj, rfl, ps, qs, h1, h2, p, hp, q, hq, ht⟩
    refine ⟨p, by rw [h1]; exact hp, (o, j), List.mem_zipIdx_iff_getElem?.mpr ho, ?_⟩
    rw [if_neg hj, List.mem_map]
    exact ⟨q, List.mem_filter.mpr ⟨by rw [h2]; exact hq, (taps_iff p q).mpr ht⟩, rfl⟩

/-- **C223.** When the first of two that are combined is tapped, it is with one called like the second.

Partial: the second may be tapped elsewhere, and the two may be combined in parallel, see `tapped_second_combined` and `tapped_in_parallel`. -/
theorem tapped_first_partial (cs : List Comb) (limit : ℕ) : ∀ c ∈ combine cs limit, ∃ i a b, cs[i]? = some a ∧ [a, b].Sublist cs ∧
    (c = series a b ∨ c = parallel a b) ∧ ((∃ name, TappedWith cs i a name) → TappedWith cs i a b.name) := by
  intro c hc
  obtain ⟨i, a, b, hi, hab, hj⟩ := mem_combineFrom cs 0 hc
  obtain ⟨_, _, _, _, ht, hk⟩ := mem_joined hj
  rw [Nat.zero_add] at ht
  refine ⟨i, a, b, hi, hab, by rcases hk with ⟨h, _⟩ | ⟨h, _⟩ <;> simp [h], ?_⟩
  rintro ⟨name, hn⟩
  rcases ht with ht | ht
  · have := mem_compulsory.mpr hn
    rw [ht] at this
    exact absurd this (by simp)
  · exact mem_compulsory.mp ht

/-- The halves of a winding with a tap. -/
def half (name : String) (direction : Bool) : Winding := ⟨name, .secondary, 10, 1, some [⟨some direction, some "tap"⟩]⟩

/-- Case of `tapped_first_partial`: of two halves and another winding, the first half is only combined with the second. -/
example : ((combine (([half "a" true, half "b" false, ⟨"c", .secondary, 5, 1, some []⟩] : List Winding).zipIdx.map (fun w => alone w.2 w.1)) 2).filter
    (fun c => c.indexes.head? == some 0)).all (fun c => c.indexes == [0, 1]) = true := by decide +kernel

/-- **C223.** The two halves of a winding with a tap are combined in parallel. -/
theorem tapped_in_parallel : ∃ c ∈ combinations [half "a" true, half "b" false] 1, c.isParallel = true ∧ c.indexes = [0, 1] := by
  refine ⟨parallel (alone 0 (half "a" true)) (alone 1 (half "b" false)), ?_, rfl, rfl⟩
  decide +kernel

/-- **C223.** A half is combined with a winding that it is not tapped with, if that one comes first. -/
theorem tapped_second_combined : ∃ c ∈ combinations [⟨"c", .secondary, 5, 1, some []⟩, half "a" true, half "b" false] 2, c.indexes = [0, 1] := by
  refine ⟨series (alone 0 ⟨"c", .secondary, 5, 1, some []⟩) (alone 1 (half "a" true)), ?_, rfl⟩
  decide +kernel

/-! ## C224: virtual magnetics -/

/-- A virtual magnetic meets the requirements: its first winding is of the primary side and meets the inductance, each further one its turns
ratio, and no winding of the coil is used twice. -/
def Meets (cs : List Comb) (meets : Comb → Bool) (ratios : List (ℕ → ℕ → Bool)) (v : Virtual) : Prop :=
  ∃ p rest, v = p :: rest ∧ p ∈ cs ∧ p.side = .primary ∧ meets p = true ∧
    List.Forall₂ (fun (accepts : ℕ → ℕ → Bool) (c : Comb) => c ∈ cs ∧ accepts p.turns c.turns = true) ratios rest ∧ (used v).Nodup

theorem used_append (v : Virtual) (c : Comb) : used (v ++ [c]) = used v ++ c.indexes := by simp [used]

/-- Folding over combinations for one virtual magnetic. -/
theorem extendOne_virtuals (accepts : ℕ → ℕ → Bool) (v : Virtual) (cs : List Comb) : ∀ f : Found,
    ∀ t ∈ (cs.foldl (extendOne accepts v) f).virtuals, t ∈ f.virtuals ∨
      ∃ c ∈ cs, t = v ++ [c] ∧ (used v).Disjoint c.indexes ∧ accepts ((v.head?.map Comb.turns).getD 0) c.turns = true := by
  induction cs with
  | nil => intro f t ht; exact Or.inl ht
  | cons c cs ih =>
    intro f t ht
    rcases ih _ t ht with h | ⟨d, hd, h⟩
    · unfold extendOne at h
      by_cases h1 : repeated (used v) c.indexes = true
      · rw [if_pos h1] at h; exact Or.inl h
      rw [if_neg h1] at h
      by_cases h2 : accepts ((v.head?.map Comb.turns).getD 0) c.turns = true
      · rw [if_pos h2] at h
        by_cases h3 : f.virtuals.any (fun t => used t == used (v ++ [c])) = true
        · rw [if_pos h3] at h; exact Or.inl h
        · rw [if_neg h3] at h
          rcases List.mem_append.mp h with h | h
          · exact Or.inl h
          · exact Or.inr ⟨c, by simp, by simpa using h, repeated_false (by simpa using h1), h2⟩
      · rw [if_neg h2] at h; exact Or.inl h
    · exact Or.inr ⟨d, by simp [hd], h⟩

theorem extend_virtuals (accepts : ℕ → ℕ → Bool) (cs : List Comb) (f : Found) : ∀ t ∈ (extend cs f accepts).virtuals,
    ∃ v ∈ f.virtuals, ∃ c ∈ cs, t = v ++ [c] ∧ (used v).Disjoint c.indexes ∧ accepts ((v.head?.map Comb.turns).getD 0) c.turns = true := by
  have h : ∀ (vs : List Virtual) (g : Found), ∀ t ∈ (vs.foldl (fun g v => cs.foldl (extendOne accepts v) g) g).virtuals, t ∈ g.virtuals ∨
      ∃ v ∈ vs, ∃ c ∈ cs, t = v ++ [c] ∧ (used v).Disjoint c.indexes ∧ accepts ((v.head?.map Comb.turns).getD 0) c.turns = true := by
    intro vs
    induction vs with
    | nil => intro g t ht; exact Or.inl ht
    | cons v vs ih =>
      intro g t ht
      rcases ih _ t ht with h | ⟨u, hu, h⟩
      · rcases extendOne_virtuals accepts v cs g t h with h | ⟨c, hc, h⟩
        · exact Or.inl h
        · exact Or.inr ⟨v, by simp, c, hc, h⟩
      · exact Or.inr ⟨u, by simp [hu], h⟩
  intro t ht
  rcases h f.virtuals ⟨f.records, []⟩ t ht with h | h
  · exact absurd h (by simp)
  · exact h

theorem primaries_virtuals (meets : Comb → Bool) (cs : List Comb) : ∀ t ∈ (primaries meets cs).virtuals,
    ∃ p ∈ cs, t = [p] ∧ p.side = .primary ∧ meets p = true := by
  have h : ∀ (ps : List Comb) (f : Found), ∀ t ∈ (ps.foldl
      (fun (f : Found) c => if meets c then ⟨(c.indexes, c) :: f.records, f.virtuals ++ [[c]]⟩ else f) f).virtuals,
      t ∈ f.virtuals ∨ ∃ p ∈ ps, t = [p] ∧ meets p = true := by
    intro ps
    induction ps with
    | nil => intro f t ht; exact Or.inl ht
    | cons p ps ih =>
      intro f t ht
      rcases ih _ t ht with h | ⟨q, hq, h⟩
      · by_cases hm : meets p = true
        · simp only [hm, if_true, List.mem_append, List.mem_singleton] at h
          rcases h with h | h
          · exact Or.inl h
          · exact Or.inr ⟨p, by simp, h, hm⟩
        · simp only [hm, if_false] at h; exact Or.inl h
      · exact Or.inr ⟨q, by simp [hq], h⟩
  intro t ht
  rcases h _ _ t ht with h | ⟨p, hp, h1, h2⟩
  · exact absurd h (by simp)
  · simp only [List.mem_filter, decide_eq_true_eq] at hp
    exact ⟨p, hp.1, h1, hp.2, h2⟩

/-- **C224.** Every virtual magnetic meets the requirements, and its windings are combinations of the coil's. -/
theorem virtuals_sound (meets : Comb → Bool) (ratios : List (ℕ → ℕ → Bool)) (ws : List Winding) :
    ∀ v ∈ (virtuals meets ratios ws).virtuals, Meets (combinations ws (ratios.length + 1)) meets ratios v := by
  have hn : ∀ c ∈ combinations ws (ratios.length + 1), c.indexes.Nodup := by
    intro c hc
    obtain ⟨t, ht⟩ := combinations_sound ws _ c hc
    rw [ht.indexes]
    exact ht.nodup
  unfold virtuals
  generalize combinations ws (ratios.length + 1) = cs at hn
  have key : ∀ (todo done : List (ℕ → ℕ → Bool)) (f : Found), (∀ v ∈ f.virtuals, Meets cs meets done v) →
      ∀ v ∈ (todo.foldl (extend cs) f).virtuals, Meets cs meets (done ++ todo) v := by
    intro todo
    induction todo with
    | nil => intro done f h; simpa using h
    | cons r todo ih =>
      intro done f h
      have := ih (done ++ [r]) (extend cs f r) ?_
      · simpa using this
      · intro t ht
        obtain ⟨v, hv, c, hc, rfl, hd, ha⟩ := extend_virtuals r cs f t ht
        obtain ⟨p, rest, rfl, h1, h2, h3, h4, h5⟩ := h v hv
        refine ⟨p, rest ++ [c], rfl, h1, h2, h3, ?_, ?_⟩
        · exact List.rel_append h4 (.cons ⟨hc, ha⟩ .nil)
        · rw [used_append, List.nodup_append]
          exact ⟨h5, hn c hc, fun x hx y hy hxy => hd hx (hxy ▸ hy)⟩
  have := key ratios [] (primaries meets cs) ?_
  · simpa using this
  · intro v hv
    obtain ⟨p, hp, rfl, h1, h2⟩ := primaries_virtuals meets cs v hv
    exact ⟨p, [], rfl, hp, h1, h2, .nil, by simpa [used] using hn p hp⟩

/-- **C224.** The call is undefined exactly when there is something to name and the magnetic has no manufacturer information, and throws exactly
when that has no reference. -/
theorem labelled_spec (info : Option (Option String)) (f : Found) :
    (labelled info f = .undefined ↔ f.virtuals ≠ [] ∧ info = none) ∧ (labelled info f = .threw ↔ f.virtuals ≠ [] ∧ info = some none) := by
  unfold labelled
  cases h : f.virtuals with
  | nil => simp
  | cons v vs =>
    cases info with
    | none => simp
    | some r => cases r <;> simp

/-- Turns ratio within one and three times. -/
def upToThree (first second : ℕ) : Bool := decide (first ≤ second ∧ second ≤ 3 * first)

/-- Three windings of the same side. -/
def three : List Winding := [plain "a" 10 .primary, plain "b" 10 .primary, plain "c" 20 .primary]

/-- Case of `virtuals_sound`: the virtual magnetics of three windings. -/
example : ((virtuals (fun _ => true) [upToThree] three).virtuals.map (fun v => v.map Comb.indexes)) =
    [[[0], [1]], [[0], [2]], [[0], [1, 2]], [[1], [0]], [[1], [2]], [[1], [0, 2]], [[2], [0, 1]]] := by decide +kernel

/-- Case of `labelled_spec`: without manufacturer information. -/
example : labelled none (virtuals (fun _ => true) [upToThree] three) = .undefined := by
  exact (labelled_spec _ _).1.mpr ⟨by decide +kernel, rfl⟩

/-! ## C225: back from virtual windings -/

/-- Every combination of every virtual magnetic is recorded, and what is recorded is a combination under its own windings. -/
def Recorded (cs : List Comb) (f : Found) : Prop :=
  (∀ v ∈ f.virtuals, ∀ c ∈ v, (c.indexes, c) ∈ f.records) ∧ ∀ r ∈ f.records, r.1 = r.2.indexes ∧ r.2 ∈ cs

theorem recorded_extendOne {all : List Comb} {accepts : ℕ → ℕ → Bool} {v : Virtual} {c : Comb} {f : Found} (hc : c ∈ all)
    (hv : ∀ d ∈ v, (d.indexes, d) ∈ f.records) (h : Recorded all f) :
    Recorded all (extendOne accepts v f c) ∧ ∀ r ∈ f.records, r ∈ (extendOne accepts v f c).records := by
  unfold extendOne
  split
  · exact ⟨h, fun r hr => hr⟩
  split
  · split
    · exact ⟨h, fun r hr => hr⟩
    · refine ⟨⟨?_, ?_⟩, fun r hr => by simp [hr]⟩
      · intro t ht d hd
        rcases List.mem_append.mp ht with ht | ht
        · exact List.mem_cons_of_mem _ (h.1 t ht d hd)
        · rw [List.mem_singleton] at ht
          subst ht
          rcases List.mem_append.mp hd with hd | hd
          · exact List.mem_cons_of_mem _ (hv d hd)
          · rw [List.mem_singleton] at hd
            simp [hd]
      · intro r hr
        rcases List.mem_cons.mp hr with rfl | hr
        · exact ⟨rfl, hc⟩
        · exact h.2 r hr
  · exact ⟨h, fun r hr => hr⟩

theorem recorded_fold {all : List Comb} {accepts : ℕ → ℕ → Bool} {v : Virtual} (cs : List Comb) : ∀ f : Found, (∀ c ∈ cs, c ∈ all) →
    (∀ d ∈ v, (d.indexes, d) ∈ f.records) → Recorded all f →
    Recorded all (cs.foldl (extendOne accepts v) f) ∧ ∀ r ∈ f.records, r ∈ (cs.foldl (extendOne accepts v) f).records := by
  induction cs with
  | nil => intro f _ _ h; exact ⟨h, fun r hr => hr⟩
  | cons c cs ih =>
    intro f hcs hv h
    obtain ⟨h1, h2⟩ := recorded_extendOne (accepts := accepts) (hcs c (by simp)) hv h
    obtain ⟨h3, h4⟩ := ih _ (fun d hd => hcs d (by simp [hd])) (fun d hd => h2 _ (hv d hd)) h1
    exact ⟨h3, fun r hr => h4 r (h2 r hr)⟩

theorem recorded_extend {all : List Comb} {accepts : ℕ → ℕ → Bool} {f : Found} (h : Recorded all f) : Recorded all (extend all f accepts) := by
  have key : ∀ (vs : List Virtual) (g : Found), (∀ v ∈ vs, ∀ d ∈ v, (d.indexes, d) ∈ g.records) → Recorded all g →
      Recorded all (vs.foldl (fun g v => all.foldl (extendOne accepts v) g) g) := by
    intro vs
    induction vs with
    | nil => intro g _ h; exact h
    | cons v vs ih =>
      intro g hv h
      obtain ⟨h1, h2⟩ := recorded_fold (accepts := accepts) (v := v) all g (fun c hc => hc) (hv v (by simp)) h
      exact ih _ (fun u hu d hd => h2 _ (hv u (by simp [hu]) d hd)) h1
  exact key f.virtuals ⟨f.records, []⟩ h.1 ⟨by simp, h.2⟩

theorem recorded_primaries (meets : Comb → Bool) (cs : List Comb) : Recorded cs (primaries meets cs) := by
  have key : ∀ (ps : List Comb) (f : Found), (∀ p ∈ ps, p ∈ cs) → Recorded cs f → Recorded cs (ps.foldl
      (fun (f : Found) c => if meets c then ⟨(c.indexes, c) :: f.records, f.virtuals ++ [[c]]⟩ else f) f) := by
    intro ps
    induction ps with
    | nil => intro f _ h; exact h
    | cons p ps ih =>
      intro f hp h
      refine ih _ (fun q hq => hp q (by simp [hq])) ?_
      by_cases hm : meets p = true
      · simp only [hm, if_true]
        refine ⟨?_, ?_⟩
        · intro t ht d hd
          rcases List.mem_append.mp ht with ht | ht
          · exact List.mem_cons_of_mem _ (h.1 t ht d hd)
          · rw [List.mem_singleton] at ht
            subst ht
            rw [List.mem_singleton] at hd
            simp [hd]
        · intro r hr
          rcases List.mem_cons.mp hr with rfl | hr
          · exact ⟨rfl, hp p (by simp)⟩
          · exact h.2 r hr
      · simp only [hm, if_false]; exact h
  refine key _ _ (fun p hp => ?_) ⟨by simp, by simp⟩
  simp only [List.mem_filter] at hp
  exact hp.1

theorem recorded_virtuals (meets : Comb → Bool) (ratios : List (ℕ → ℕ → Bool)) (ws : List Winding) :
    Recorded (combinations ws (ratios.length + 1)) (virtuals meets ratios ws) := by
  unfold virtuals
  generalize combinations ws (ratios.length + 1) = cs
  have key : ∀ (rs : List (ℕ → ℕ → Bool)) (f : Found), Recorded cs f → Recorded cs (rs.foldl (extend cs) f) := by
    intro rs
    induction rs with
    | nil => intro f h; exact h
    | cons r rs ih => intro f h; exact ih _ (recorded_extend h)
  exact key _ _ (recorded_primaries meets cs)

/-- **C225.** Under the name of a winding of a virtual magnetic there is a combination of the same windings of the coil; it is the one that the
winding was made of if the coil has no other combination of them.

Partial: the same windings in series and in parallel have the same name, and the last one recorded is what is found, see `series_found_as_parallel`. -/
theorem found_again_partial (meets : Comb → Bool) (ratios : List (ℕ → ℕ → Bool)) (ws : List Winding) :
    ∀ v ∈ (virtuals meets ratios ws).virtuals, ∀ c ∈ v, ∃ d ∈ combinations ws (ratios.length + 1),
      recorded (virtuals meets ratios ws) c.indexes = some d ∧ d.indexes = c.indexes ∧
        ((∀ e ∈ combinations ws (ratios.length + 1), e.indexes = c.indexes → e = c) → d = c) := by
  intro v hv c hc
  obtain ⟨h1, h2⟩ := recorded_virtuals meets ratios ws
  have hm := h1 v hv c hc
  cases hf : (virtuals meets ratios ws).records.find? (fun r => r.1 == c.indexes) with
  | none =>
    have := List.find?_eq_none.mp hf _ hm
    simp at this
  | some r =>
    have hr := List.mem_of_find?_eq_some hf
    have he := List.find?_some hf
    have he : r.1 = c.indexes := by simpa using he
    obtain ⟨h3, h4⟩ := h2 r hr
    exact ⟨r.2, h4, by simp [recorded, hf], by rw [← h3, he], fun hu => hu r.2 h4 (by rw [← h3, he])⟩

/-- **C225.** A virtual winding of twenty turns in series is found as one of ten turns in parallel. -/
theorem series_found_as_parallel : ∃ v ∈ (virtuals (fun _ => true) [] [plain "a" 10 .primary, plain "b" 10 .primary]).virtuals, ∃ c ∈ v, ∃ d,
    c.turns = 20 ∧ c.isParallel = false ∧
    recorded (virtuals (fun _ => true) [] [plain "a" 10 .primary, plain "b" 10 .primary]) c.indexes = some d ∧ d.turns = 10 ∧ d.isParallel = true := by
  refine ⟨[series (alone 0 (plain "a" 10 .primary)) (alone 1 (plain "b" 10 .primary))], by decide +kernel,
    series (alone 0 (plain "a" 10 .primary)) (alone 1 (plain "b" 10 .primary)), by simp,
    parallel (alone 0 (plain "a" 10 .primary)) (alone 1 (plain "b" 10 .primary)), by decide +kernel, by decide +kernel, by decide +kernel,
    by decide +kernel, by decide +kernel⟩

/-! ## C226: which of the possible ones are found -/

theorem extendOne_keeps {accepts : ℕ → ℕ → Bool} {v : Virtual} {c : Comb} {f : Found} : ∀ t ∈ f.virtuals, t ∈ (extendOne accepts v f c).virtuals := by
  intro t ht
  unfold extendOne
  split
  · exact ht
  split
  · split
    · exact ht
    · simp [ht]
  · exact ht

theorem foldOne_keeps {accepts : ℕ → ℕ → Bool} {v : Virtual} (cs : List Comb) : ∀ f : Found, ∀ t ∈ f.virtuals,
    t ∈ (cs.foldl (extendOne accepts v) f).virtuals := by
  induction cs with
  | nil => intro f t ht; exact ht
  | cons c cs ih => intro f t ht; exact ih _ t (extendOne_keeps t ht)

theorem repeated_of_disjoint {a b : List ℕ} (h : a.Disjoint b) : repeated a b = false := by
  cases hr : repeated a b with
  | false => rfl
  | true =>
    unfold repeated at hr
    simp only [List.any_eq_true] at hr
    obtain ⟨x, hx, hy⟩ := hr
    exact absurd (by simpa using hy) (fun hb => h hx hb)

theorem foldOne_finds {accepts : ℕ → ℕ → Bool} {v : Virtual} (cs : List Comb) : ∀ f : Found, ∀ c ∈ cs, (used v).Disjoint c.indexes →
    accepts ((v.head?.map Comb.turns).getD 0) c.turns = true → ∃ t ∈ (cs.foldl (extendOne accepts v) f).virtuals, used t = used v ++ c.indexes := by
  induction cs with
  | nil => intro f c hc; exact absurd hc (by simp)
  | cons d cs ih =>
    intro f c hc hd ha
    rcases List.mem_cons.mp hc with rfl | hc
    · have : ∃ t ∈ (extendOne accepts v f c).virtuals, used t = used v ++ c.indexes := by
        unfold extendOne
        rw [repeated_of_disjoint hd, if_neg (by simp), if_pos ha]
        by_cases h3 : f.virtuals.any (fun t => used t == used (v ++ [c])) = true
        · rw [if_pos h3]
          obtain ⟨t, ht, hu⟩ := List.any_eq_true.mp h3
          exact ⟨t, ht, by rw [← used_append]; simpa using hu⟩
        · rw [if_neg h3]
          exact ⟨v ++ [c], by simp, used_append v c⟩
      obtain ⟨t, ht, hu⟩ := this
      exact ⟨t, foldOne_keeps cs _ t ht, hu⟩
    · exact ih _ c hc hd ha

theorem primaries_complete (meets : Comb → Bool) (cs : List Comb) : ∀ p ∈ cs, p.side = .primary → meets p = true → [p] ∈ (primaries meets cs).virtuals := by
  have keep : ∀ (ps : List Comb) (f : Found), ∀ t ∈ f.virtuals, t ∈ (ps.foldl
      (fun (f : Found) c => if meets c then ⟨(c.indexes, c) :: f.records, f.virtuals ++ [[c]]⟩ else f) f).virtuals := by
    intro ps
    induction ps with
    | nil => intro f t ht; exact ht
    | cons q ps ih =>
      intro f t ht
      refine ih _ t ?_
      by_cases hm : meets q = true
      · simp [hm, ht]
      · simp [hm, ht]
  have key : ∀ (ps : List Comb) (f : Found), ∀ p ∈ ps, meets p = true → [p] ∈ (ps.foldl
      (fun (f : Found) c => if meets c then ⟨(c.indexes, c) :: f.records, f.virtuals ++ [[c]]⟩ else f) f).virtuals := by
    intro ps
    induction ps with
    | nil => intro f p hp; exact absurd hp (by simp)
    | cons q ps ih =>
      intro f p hp hm
      rcases List.mem_cons.mp hp with rfl | hp
      · exact keep ps _ _ (by simp [hm])
      · exact ih _ p hp hm
  intro p hp hs hm
  exact key _ _ p (by simp [hp, hs]) hm

/-- **C226.** Without turns ratios, every combination of the primary side that meets the inductance is a virtual magnetic. With one, for every
pair that meets the requirements there is a virtual magnetic of the same windings of the coil in the same order.

Partial: which of them belong to which side, and whether they are in series or in parallel, may be different, see `grouping_lost` and
`parallel_lost`. -/
theorem all_found_partial (meets : Comb → Bool) (ws : List Winding) :
    (∀ p ∈ combinations ws 1, p.side = .primary → meets p = true → [p] ∈ (virtuals meets [] ws).virtuals) ∧
    ∀ accepts : ℕ → ℕ → Bool, ∀ p ∈ combinations ws 2, p.side = .primary → meets p = true → ∀ c ∈ combinations ws 2,
      p.indexes.Disjoint c.indexes → accepts p.turns c.turns = true →
        ∃ t ∈ (virtuals meets [accepts] ws).virtuals, used t = p.indexes ++ c.indexes := by
  refine ⟨fun p hp hs hm => primaries_complete meets _ p hp hs hm, ?_⟩
  intro accepts p hp hs hm c hc hd ha
  have hmem := primaries_complete meets _ p hp hs hm
  have key : ∀ (vs : List Virtual) (g : Found), [p] ∈ vs →
      ∃ t ∈ (vs.foldl (fun g v => (combinations ws 2).foldl (extendOne accepts v) g) g).virtuals, used t = p.indexes ++ c.indexes := by
    have keep : ∀ (vs : List Virtual) (g : Found), ∀ t ∈ g.virtuals,
        t ∈ (vs.foldl (fun g v => (combinations ws 2).foldl (extendOne accepts v) g) g).virtuals := by
      intro vs
      induction vs with
      | nil => intro g t ht; exact ht
      | cons v vs ih => intro g t ht; exact ih _ t (foldOne_keeps _ _ t ht)
    intro vs
    induction vs with
    | nil => intro g h; exact absurd h (by simp)
    | cons v vs ih =>
      intro g h
      rcases List.mem_cons.mp h with rfl | h
      · obtain ⟨t, ht, hu⟩ := foldOne_finds (accepts := accepts) (v := [p]) (combinations ws 2) g c hc (by simpa [used] using hd) (by simpa using ha)
        exact ⟨t, keep vs _ t ht, by simpa [used] using hu⟩
      · exact ih _ h
  exact key (primaries meets (combinations ws 2)).virtuals _ hmem

/-- **C226.** The first two windings in series against the third meet the requirements but are not found: the first against the other two was
found before. -/
theorem grouping_lost : let p := series (alone 0 (plain "a" 10 .primary)) (alone 1 (plain "b" 10 .primary)); let c := alone 2 (plain "c" 20 .primary)
    p ∈ combinations three 2 ∧ p.side = .primary ∧ c ∈ combinations three 2 ∧ upToThree p.turns c.turns = true ∧
      [p, c] ∉ (virtuals (fun _ => true) [upToThree] three).virtuals := by
  decide +kernel

/-- **C226.** Two secondaries in parallel meet the requirements but are not found: the two in series were found before. -/
theorem parallel_lost :
    let ws := [plain "a" 10 .primary, plain "b" 10 .secondary, plain "c" 10 .secondary]
    let p := alone 0 (plain "a" 10 .primary)
    let c := parallel (alone 1 (plain "b" 10 .secondary)) (alone 2 (plain "c" 10 .secondary))
    p ∈ combinations ws 2 ∧ c ∈ combinations ws 2 ∧ upToThree p.turns c.turns = true ∧ [p, c] ∉ (virtuals (fun _ => true) [upToThree] ws).virtuals := by
  decide +kernel

/-- Case of `all_found_partial`. -/
example : ∃ p ∈ combinations three 2, ∃ c ∈ combinations three 2, p.side = .primary ∧ p.indexes.Disjoint c.indexes ∧ upToThree p.turns c.turns = true :=
  ⟨alone 0 (plain "a" 10 .primary), by decide +kernel, alone 1 (plain "b" 10 .primary), by decide +kernel, by decide +kernel,
    by intro x hx hy; simp [alone] at hx hy; omega, by decide +kernel⟩

/-! ## C227: excitations of the windings of the coil -/

section

variable {K : Type} [Field K] [LinearOrder K] [IsStrictOrderedRing K]

/-- The ampere turns of windings, given what each is excited with. -/
def ampereTurns : List (ℕ × Excitation K) → K
  | [] => 0
  | (n, e) :: rest => (n : K) * e.current + ampereTurns rest

/-- What the windings of a combination are given. -/
def shares (c : Comb) (e : Excitation K) (turns : List ℕ) : List (ℕ × Excitation K) := turns.map (fun n => (n, share c n e))

theorem sum_squares_lt : ∀ (a b : ℕ) (rest : List ℕ), 0 < a → 0 < b →
    ((a :: b :: rest).map (fun n => n * n)).sum < (a :: b :: rest).sum * (a :: b :: rest).sum := by
  have le : ∀ l : List ℕ, (l.map (fun n => n * n)).sum ≤ l.sum * l.sum := by
    intro l
    induction l with
    | nil => simp
    | cons x l ih => simp only [List.map_cons, List.sum_cons]; nlinarith [Nat.zero_le x, Nat.zero_le l.sum, Nat.zero_le (x * l.sum)]
  intro a b rest ha hb
  have := le rest
  simp only [List.map_cons, List.sum_cons]
  have h1 : 0 < a * b := Nat.mul_pos ha hb
  nlinarith [Nat.zero_le (a * rest.sum), Nat.zero_le (b * rest.sum)]

theorem series_total (c : Comb) (e : Excitation K) (h : c.isParallel = false) (turns : List ℕ) :
    ampereTurns (shares c e turns) = ((turns.map (fun n => n * n)).sum : ℕ) / (c.turns : K) * e.current := by
  induction turns with
  | nil => simp [shares, ampereTurns]
  | cons n turns ih =>
    simp only [shares, List.map_cons, ampereTurns] at ih ⊢
    rw [ih]
    simp only [share, h, List.sum_cons, Bool.false_eq_true, if_false]
    push_cast
    ring

/-- **C227.** A winding on its own is given what the virtual one was. -/
theorem alone_unchanged (i : ℕ) (w : Winding) (e : Excitation K) (h : 0 < w.turns) : share (alone i w) w.turns e = e := by
  have : (w.turns : K) ≠ 0 := by exact_mod_cast h.ne'
  simp [share, alone, div_self this]

/-- **C227.** Two or more windings in series are given the whole voltage each and less ampere turns than the virtual winding had. -/
theorem series_loses (c : Comb) (e : Excitation K) (a b : ℕ) (rest : List ℕ) (hs : c.isParallel = false) (ha : 0 < a) (hb : 0 < b)
    (hc : c.turns = (a :: b :: rest).sum) (he : 0 < e.current) :
    (∀ s ∈ shares c e (a :: b :: rest), s.2.voltage = e.voltage) ∧ ampereTurns (shares c e (a :: b :: rest)) < (c.turns : K) * e.current := by
  refine ⟨?_, ?_⟩
  · intro s hm
    simp only [shares, List.mem_map] at hm
    obtain ⟨n, _, rfl⟩ := hm
    simp [share, hs]
  · rw [series_total c e hs]
    refine mul_lt_mul_of_pos_right ?_ he
    have hpos : 0 < (c.turns : K) := by
      have : 0 < c.turns := by rw [hc]; simp only [List.sum_cons]; omega
      exact_mod_cast this
    rw [div_lt_iff₀ hpos, ← Nat.cast_mul, hc]
    exact_mod_cast sum_squares_lt a b rest ha hb

/-- **C227.** Windings in parallel are given the whole current each: as many times the ampere turns as there are windings. -/
theorem parallel_multiplies (c : Comb) (e : Excitation K) (n : ℕ) (hp : c.isParallel = true) (hc : 0 < c.turns) :
    (∀ s ∈ shares c e (List.replicate n c.turns), s.2 = e) ∧
      ampereTurns (shares c e (List.replicate n c.turns)) = (n : K) * ((c.turns : K) * e.current) := by
  have h0 : (c.turns : K) ≠ 0 := by exact_mod_cast hc.ne'
  have hshare : share c c.turns e = e := by simp [share, hp, div_self h0]
  refine ⟨?_, ?_⟩
  · intro s hm
    simp only [shares, List.map_replicate] at hm
    rw [List.eq_of_mem_replicate hm, hshare]
  · induction n with
    | zero => simp [shares, ampereTurns]
    | succ n ih =>
      simp only [shares, List.replicate_succ, List.map_cons, ampereTurns] at ih ⊢
      rw [ih, hshare]
      push_cast
      ring

/-! ## C228: windings that are not used -/

/-- What the winding at a position is to be given: the share of the first part that has it. -/
def expected (parts : List (Comb × Excitation K)) (w : Winding × ℕ) : Given K :=
  match parts.find? (fun p => p.1.indexes.contains w.2) with
  | some p => .excited (share p.1 w.1.turns p.2)
  | none => .madeUp

theorem spread_given (parts : List (Comb × Excitation K)) (ws : List (Winding × ℕ)) : ∀ given : List (Given K), given ≠ [] →
    spread parts ws given = some (given ++ ws.map (expected parts)) := by
  induction ws with
  | nil => intro given _; simp [spread]
  | cons w ws ih =>
    intro given hg
    obtain ⟨w, i⟩ := w
    cases h : parts.find? (fun p => p.1.indexes.contains i) with
    | some p =>
      simp only [spread, h]
      rw [ih _ (by simp)]
      simp only [expected, h, List.map_cons, List.append_assoc, List.cons_append, List.nil_append]
    | none =>
      have he : given.isEmpty = false := by simpa using hg
      simp only [spread, h, he, Bool.false_eq_true, if_false]
      rw [ih _ (by simp)]
      simp only [expected, h, List.map_cons, List.append_assoc, List.cons_append, List.nil_append]

/-- **C228.** The call is undefined exactly when the first winding of the coil is not used; otherwise every winding is given the share of the
first virtual winding that has it, and a made up excitation if none has. -/
theorem devirtualize_spec (ws : List Winding) (parts : List (Comb × Excitation K)) :
    (devirtualize ws parts = none ↔ ws ≠ [] ∧ ∀ p ∈ parts, 0 ∉ p.1.indexes) ∧
      ∀ given, devirtualize ws parts = some given → given = ws.zipIdx.map (expected parts) := by
  unfold devirtualize
  cases ws with
  | nil => simp [spread]
  | cons w ws =>
    simp only [List.zipIdx_cons, Nat.zero_add]
    cases h : parts.find? (fun p => p.1.indexes.contains 0) with
    | some p =>
      have hp := List.mem_of_find?_eq_some h
      have hi : 0 ∈ p.1.indexes := by simpa using List.find?_some h
      have : spread parts ((w, 0) :: ws.zipIdx 1) ([] : List (Given K)) = some ([expected parts (w, 0)] ++ (ws.zipIdx 1).map (expected parts)) := by
        simp only [spread, h]
        rw [spread_given _ _ _ (by simp)]
        simp only [expected, h, List.map_cons, List.append_assoc, List.cons_append, List.nil_append]
      rw [this]
      refine ⟨⟨fun h => by simp at h, fun ⟨_, hn⟩ => absurd hi (hn p hp)⟩, ?_⟩
      intro given hg
      simpa using hg.symm
    | none =>
      have hn := List.find?_eq_none.mp h
      have : spread parts ((w, 0) :: ws.zipIdx 1) ([] : List (Given K)) = none := by
        simp only [spread, h, List.isEmpty_nil, if_true]
      rw [this]
      refine ⟨⟨fun _ => ⟨by simp, fun p hp => by simpa using hn p hp⟩, fun _ => rfl⟩, ?_⟩
      intro given hg
      simp at hg

end

/-- Case of `series_loses`: two windings of ten turns in series, two volts and one ampere: each is given two volts and half an ampere. -/
example : shares (series (alone 0 (plain "a" 10 .primary)) (alone 1 (plain "b" 10 .primary))) (⟨2, 1⟩ : Excitation ℚ) [10, 10] =
    [(10, ⟨2, 1 / 2⟩), (10, ⟨2, 1 / 2⟩)] := by decide +kernel

/-- Case of `parallel_multiplies`: in parallel each is given one ampere. -/
example : shares (parallel (alone 0 (plain "a" 10 .primary)) (alone 1 (plain "b" 10 .primary))) (⟨2, 1⟩ : Excitation ℚ) [10, 10] =
    [(10, ⟨2, 1⟩), (10, ⟨2, 1⟩)] := by decide +kernel

/-- Case of `devirtualize_spec`: the virtual magnetic of the second and the third winding of three. -/
example : devirtualize three [(alone 1 (plain "b" 10 .primary), (⟨2, 1⟩ : Excitation ℚ)), (alone 2 (plain "c" 20 .primary), ⟨4, 1⟩)] = none :=
  (devirtualize_spec _ _).1.mpr ⟨by simp [three], by decide +kernel⟩

end Verif.Combinator
