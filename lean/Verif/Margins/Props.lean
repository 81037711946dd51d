import Verif.Margins.Model
import Mathlib.Tactic.Linarith
import Mathlib.Tactic.NormNum
import Mathlib.Tactic.Ring
import Mathlib.Tactic.FieldSimp
import Mathlib.Tactic.Positivity

/-! # Properties of the margins of sections -/

namespace Verif.Margins

set_option linter.unusedSimpArgs false
set_option linter.unusedSectionVars false
set_option linter.unusedVariables false

variable {K : Type} [Field K] [LinearOrder K] [IsStrictOrderedRing K]

/-! ## Specification -/

/-- Margins at least as large, everywhere. -/
def AtLeast (m m' : Margins K) : Prop := ∀ j, (m j).1 ≤ (m' j).1 ∧ (m j).2 ≤ (m' j).2

/-- Sections of windings `v` and `w` with insulation between, the first of ordinal `k`. -/
def Adjacent (entries : List (Entry K)) (offset k v w : Nat) : Prop :=
  ∃ pre post a b, entries = pre ++ .cond v a :: .ins :: .cond w b :: post ∧ k = offset + condCount pre

/-! ## Floors -/

theorem atLeast_refl (m : Margins K) : AtLeast m m := fun _ => ⟨le_refl _, le_refl _⟩

theorem atLeast_trans {a b c : Margins K} (h : AtLeast a b) (h' : AtLeast b c) : AtLeast a c := fun j =>
  ⟨le_trans (h j).1 (h' j).1, le_trans (h j).2 (h' j).2⟩

theorem raiseBoth_spec (d : K) (k : Nat) (m : Margins K) : AtLeast m (raiseBoth d k m) ∧
    (∀ j, j = k ∨ j = k - 1 → d / 2 ≤ (raiseBoth d k m j).1 ∧ d / 2 ≤ (raiseBoth d k m j).2) := by
  constructor
  · intro j
    unfold raiseBoth setAt raised
    by_cases h1 : j = k - 1
    · by_cases h3 : k - 1 = k
      · simp only [h1, h3, if_true]
        exact ⟨le_trans (le_max_left _ _) (le_max_left _ _), le_trans (le_max_left _ _) (le_max_left _ _)⟩
      · simp only [h1, h3, if_true, if_false]
        exact ⟨le_max_left _ _, le_max_left _ _⟩
    · by_cases h2 : j = k
      · subst h2
        simp only [h1, if_true, if_false]
        exact ⟨le_max_left _ _, le_max_left _ _⟩
      · simp only [h1, h2, if_false]
        exact ⟨le_refl _, le_refl _⟩
  · intro j hj
    unfold raiseBoth setAt raised
    by_cases h1 : j = k - 1
    · simp [h1]
    · have h2 : j = k := by rcases hj with h | h; exact h; exact absurd h h1
      subst h2
      simp [h1]

theorem raiseBoth_fixed (d : K) (k : Nat) (m m' : Margins K) (h : AtLeast (raiseBoth d k m) m') : raiseBoth d k m' = m' := by
  have hs := (raiseBoth_spec d k m).2
  have hk : ∀ j, j = k ∨ j = k - 1 → raised d (m' j) = m' j := by
    intro j hj
    have := hs j hj
    have h' := h j
    unfold raised
    rw [max_eq_left (le_trans this.1 h'.1), max_eq_left (le_trans this.2 h'.2)]
  have e1 : setAt m' k (raised d (m' k)) = m' := by
    funext j; unfold setAt; split
    · rename_i e; subst e; exact hk j (Or.inl rfl)
    · rfl
  unfold raiseBoth
  rw [e1]
  funext j; unfold setAt; split
  · rename_i e; subst e; exact hk _ (Or.inr rfl)
  · rfl

theorem floorStep_grows (c : Ctx K) (before : List (Entry K)) (w k : Nat) (m m' : Margins K)
    (h : floorStep c before w k m = .ok m') : AtLeast m m' ∧ ∀ m'', AtLeast m' m'' → floorStep c before w k m'' = .ok m'' := by
  unfold floorStep at h ⊢
  by_cases h0 : c.ifaces.isEmpty = true
  · simp only [h0, if_true, Res.ok.injEq] at h ⊢
    subst h
    exact ⟨atLeast_refl _, fun _ _ => trivial⟩
  simp only [h0, if_false, Bool.false_eq_true] at h ⊢
  match before, h with
  | [], h => cases h; exact ⟨atLeast_refl _, fun _ _ => rfl⟩
  | .cond v _ :: _, h =>
    simp only at h ⊢
    split at h
    · cases h
    · rename_i hi
      cases h
      exact ⟨atLeast_refl _, fun _ _ => by rw [if_neg hi]⟩
  | [.ins], h => cases h
  | .ins :: .ins :: _, h => cases h; exact ⟨atLeast_refl _, fun _ _ => rfl⟩
  | .ins :: .cond v _ :: _, h =>
    simp only at h ⊢
    cases hl : c.ifaces.lookup (v, w) with
    | none => rw [hl] at h; cases h; exact ⟨atLeast_refl _, fun _ _ => rfl⟩
    | some d =>
      rw [hl] at h
      cases h
      exact ⟨(raiseBoth_spec d k m).1, fun m'' hm => by simp only [raiseBoth_fixed d k m m'' hm]⟩

theorem floors_grows (c : Ctx K) (entries : List (Entry K)) : ∀ (before : List (Entry K)) (k : Nat) (m m' : Margins K),
    floors c before entries k m = .ok m' → AtLeast m m' := by
  induction entries with
  | nil => intro before k m m' h; simp only [floors, Res.ok.injEq] at h; subst h; exact atLeast_refl _
  | cons e r ih =>
    intro before k m m' h
    cases e with
    | ins => simp only [floors] at h; exact ih _ _ _ _ h
    | cond w s =>
      simp only [floors] at h
      cases hs : floorStep c before w k m with
      | ok m1 => rw [hs] at h; exact atLeast_trans (floorStep_grows c before w k m m1 hs).1 (ih _ _ _ _ h)
      | thrown => rw [hs] at h; cases h
      | ub => rw [hs] at h; cases h

theorem floors_fixed (c : Ctx K) (entries : List (Entry K)) : ∀ (before : List (Entry K)) (k : Nat) (m m' m'' : Margins K),
    floors c before entries k m = .ok m' → AtLeast m' m'' → floors c before entries k m'' = .ok m'' := by
  induction entries with
  | nil => intro before k m m' m'' _ _; rfl
  | cons e r ih =>
    intro before k m m' m'' h hm
    cases e with
    | ins => simp only [floors] at h ⊢; exact ih _ _ _ _ _ h hm
    | cond w s =>
      simp only [floors] at h ⊢
      cases hs : floorStep c before w k m with
      | ok m1 =>
        rw [hs] at h
        have h1 := floors_grows c r _ _ _ _ h
        rw [(floorStep_grows c before w k m m1 hs).2 m'' (atLeast_trans h1 hm)]
        exact ih _ _ _ _ _ h hm
      | thrown => rw [hs] at h; cases h
      | ub => rw [hs] at h; cases h

theorem floors_append (c : Ctx K) (pre post : List (Entry K)) : ∀ (before : List (Entry K)) (k : Nat) (m m' : Margins K),
    floors c before (pre ++ post) k m = .ok m' → ∃ m1, floors c (pre.reverse ++ before) post (k + condCount pre) m1 = .ok m' := by
  induction pre with
  | nil => intro before k m m' h; exact ⟨m, by simpa [condCount] using h⟩
  | cons e r ih =>
    intro before k m m' h
    cases e with
    | ins =>
      simp only [List.cons_append, floors] at h
      obtain ⟨m1, h1⟩ := ih _ _ _ _ h
      exact ⟨m1, by simpa [condCount] using h1⟩
    | cond w s =>
      simp only [List.cons_append, floors] at h
      cases hs : floorStep c before w k m with
      | ok m2 =>
        rw [hs] at h
        obtain ⟨m1, h1⟩ := ih _ _ _ _ h
        refine ⟨m1, ?_⟩
        have e1 : k + condCount (.cond w s :: r) = k + 1 + condCount r := by simp [condCount]; omega
        rw [e1]
        simpa using h1
      | thrown => rw [hs] at h; cases h
      | ub => rw [hs] at h; cases h

/-- **C362.** Margin tape gives the two sections at the sides of every insulation at least half the distance their interface
states, on both edges, so that every path over an edge has the distance; it lowers no margin. -/
theorem tape_floor (c : Ctx K) (entries : List (Entry K)) (offset : Nat) (m m' : Margins K)
    (h : floors c [] entries offset m = .ok m') :
    AtLeast m m' ∧
    ∀ k v w d, Adjacent entries offset k v w → c.ifaces.lookup (v, w) = some d →
      d / 2 ≤ (m' k).1 ∧ d / 2 ≤ (m' k).2 ∧ d / 2 ≤ (m' (k + 1)).1 ∧ d / 2 ≤ (m' (k + 1)).2 ∧
      d ≤ (m' k).1 + (m' (k + 1)).1 ∧ d ≤ (m' k).2 + (m' (k + 1)).2 ∧ d ≤ (m' k).2 + (m' (k + 1)).1 := by
  refine ⟨floors_grows c entries [] offset m m' h, ?_⟩
  intro k v w d ⟨pre, post, a, b, he, hk⟩ hl
  have h0 : c.ifaces.isEmpty = false := by
    cases hi : c.ifaces with
    | nil => rw [hi] at hl; simp at hl
    | cons => rfl
  have hsplit : entries = (pre ++ [.cond v a, .ins]) ++ (.cond w b :: post) := by rw [he]; simp
  rw [hsplit] at h
  obtain ⟨m1, h1⟩ := floors_append c _ _ _ _ _ _ h
  have hcount : ∀ l : List (Entry K), condCount (l ++ [.cond v a, .ins]) = condCount l + 1 := by
    intro l
    induction l with
    | nil => rfl
    | cons e r ih => cases e <;> simp [condCount, ih]
  rw [hcount] at h1
  simp only [List.reverse_append, List.reverse_cons, List.reverse_nil, List.nil_append, List.cons_append, List.append_nil,
    floors, floorStep, h0, Bool.false_eq_true, if_false, hl] at h1
  have hm := floors_grows c post _ _ _ _ h1
  have hs := (raiseBoth_spec d (offset + (condCount pre + 1)) m1).2
  have hk1 : offset + (condCount pre + 1) = k + 1 := by omega
  rw [hk1] at hs hm
  have s1 := hs (k + 1) (Or.inl rfl)
  have s0 := hs k (Or.inr (by omega))
  have g1 := hm (k + 1)
  have g0 := hm k
  refine ⟨le_trans s0.1 g0.1, le_trans s0.2 g0.2, le_trans s1.1 g1.1, le_trans s1.2 g1.2, ?_, ?_, ?_⟩
  · linarith [le_trans s0.1 g0.1, le_trans s1.1 g1.1]
  · linarith [le_trans s0.2 g0.2, le_trans s1.2 g1.2]
  · linarith [le_trans s0.2 g0.2, le_trans s1.1 g1.1]

/-- Primary and secondary with 6 between. -/
def twoWindings : Ctx ℚ := ⟨[((0, 1), 6), ((1, 0), 6)], fun a b => decide (a ≠ b)⟩

example : Adjacent ([.cond 0 4, .ins, .cond 1 2, .ins, .cond 0 4] : List (Entry ℚ)) 0 1 1 0 ∧
    twoWindings.ifaces.lookup (1, 0) = some 6 := ⟨⟨[.cond 0 4, .ins], [], 2, 4, rfl, rfl⟩, by decide +kernel⟩

/-! ## Equalising in a round window -/

theorem condCount_append (a b : List (Entry K)) : condCount (a ++ b) = condCount a + condCount b := by
  induction a with
  | nil => simp [condCount]
  | cons e r ih => cases e <;> simp [condCount, ih] <;> omega

theorem condCount_take_lt (entries : List (Entry K)) (i j w : Nat) (s : K) (hij : i < j) (hi : entries[i]? = some (.cond w s)) :
    condCount (entries.take i) < condCount (entries.take j) := by
  have hlt : i < entries.length := (List.getElem?_eq_some_iff.mp hi).1
  have e : entries.take j = entries.take i ++ (entries.drop i).take (j - i) := by
    have : j = i + (j - i) := by omega
    conv_lhs => rw [this, List.take_add]
  rw [e, condCount_append]
  have hd : entries.drop i = .cond w s :: entries.drop (i + 1) := by
    rw [List.drop_eq_getElem_cons hlt]
    rw [List.getElem?_eq_getElem hlt] at hi
    simp at hi
    rw [hi]
  rw [hd]
  have hji : j - i = (j - i - 1) + 1 := by omega
  rw [hji, List.take_succ_cons]
  simp [condCount]

theorem ordinal_inj (offset : Nat) (entries : List (Entry K)) (i j v w : Nat) (s t : K) (hi : entries[i]? = some (.cond v s))
    (hj : entries[j]? = some (.cond w t)) (h : ordinal offset entries i = ordinal offset entries j) : i = j := by
  unfold ordinal at h
  rcases Nat.lt_trichotomy i j with hlt | heq | hgt
  · have := condCount_take_lt entries i j v s hlt hi; omega
  · exact heq
  · have := condCount_take_lt entries j i w t hgt hj; omega

/-- The gap of a round window across the insulation after entry `i`, to entry `j`. -/
def Gap (entries : List (Entry K)) (i j : Nat) : Prop :=
  (∃ w s, entries[i]? = some (.cond w s)) ∧ (∃ w s, entries[j]? = some (.cond w s)) ∧ entries[i + 1]? = some .ins ∧
    (j = i + 2 ∨ (i + 2 = entries.length ∧ j = 0))

theorem eqStep_gap (c : Ctx K) (offset : Nat) (entries : List (Entry K)) (m : Margins K) (p i j : Nat) (hg : Gap entries i j) :
    (eqStep c true offset entries m p (ordinal offset entries i)).2 + (eqStep c true offset entries m p (ordinal offset entries j)).1 =
      (m (ordinal offset entries i)).2 + (m (ordinal offset entries j)).1 := by
  obtain ⟨⟨wi, si, hi⟩, ⟨wj, sj, hj⟩, hins, hpos⟩ := hg
  unfold eqStep
  by_cases h0 : c.ifaces.isEmpty = true
  · simp [h0]
  simp only [h0, if_false, Bool.false_eq_true]
  cases hp : partner true entries p with
  | none => rfl
  | some q =>
    simp only []
    unfold splitPair
    cases hep : entries[p]? with
    | none => rfl
    | some ep =>
      cases ep with
      | ins => cases entries[q]? <;> rfl
      | cond wp a =>
        cases heq : entries[q]? with
        | none => rfl
        | some eq =>
          cases eq with
          | ins => rfl
          | cond wq b =>
            simp only []
            by_cases hab : a + b ≤ 0
            · rw [if_pos hab]
            rw [if_neg hab]
            have hlen_i : i + 1 < entries.length := (List.getElem?_eq_some_iff.mp hins).1
            have hlen_p : p < entries.length := (List.getElem?_eq_some_iff.mp hep).1
            have hq : (p + 2 < entries.length ∧ q = p + 2) ∨ (¬ p + 2 < entries.length ∧ q = 0) := by
              unfold partner at hp
              by_cases hl : p + 2 < entries.length
              · simp [hl] at hp; exact Or.inl ⟨hl, hp.symm⟩
              · simp [hl] at hp; exact Or.inr ⟨hl, hp.symm⟩
            by_cases hpi : p = i
            · -- the step of this gap
              subst hpi
              have hqj : q = j := by
                rcases hq with ⟨h1, h2⟩ | ⟨h1, h2⟩ <;> rcases hpos with h3 | ⟨h3, h4⟩
                · omega
                · omega
                · have := (List.getElem?_eq_some_iff.mp hj).1; omega
                · omega
              subst hqj
              have hne : a + b ≠ 0 := fun e => hab (le_of_eq e)
              unfold split setAt
              simp only [if_true]
              by_cases hlr : ordinal offset entries p = ordinal offset entries q
              · simp only [hlr, if_true]
                field_simp
              · have hlr' : ¬ ordinal offset entries q = ordinal offset entries p := fun e => hlr e.symm
                simp only [hlr, hlr', if_true, if_false]
                field_simp
            · have hio : ordinal offset entries i ≠ ordinal offset entries p := fun e =>
                hpi (ordinal_inj offset entries i p wi wp si a hi hep e).symm
              have hqj : q ≠ j := by
                intro e
                rcases hq with ⟨h1, h2⟩ | ⟨h1, h2⟩ <;> rcases hpos with h3 | ⟨h3, h4⟩
                · omega
                · omega
                · omega
                · have : p = i + 1 := by omega
                  rw [this, hins] at hep
                  cases hep
              have hjo : ordinal offset entries j ≠ ordinal offset entries q := fun e =>
                hqj (ordinal_inj offset entries j q wj wq sj b hj heq e).symm
              unfold split setAt
              simp only [if_true, hjo, hio, if_false]
              have e1 : (if ordinal offset entries i = ordinal offset entries q then
                  (b / (a + b) * ((m (ordinal offset entries p)).2 + (m (ordinal offset entries q)).1),
                    (if ordinal offset entries q = ordinal offset entries p then
                      ((m (ordinal offset entries p)).1,
                        a / (a + b) * ((m (ordinal offset entries p)).2 + (m (ordinal offset entries q)).1))
                      else m (ordinal offset entries q)).2) else m (ordinal offset entries i)).2 = (m (ordinal offset entries i)).2 := by
                by_cases hiq : ordinal offset entries i = ordinal offset entries q
                · have hqp : ¬ ordinal offset entries q = ordinal offset entries p := fun e => hio (hiq.trans e)
                  simp only [hiq, if_true, hqp, if_false]
                · simp only [hiq, if_false]
              have e2 : (if ordinal offset entries j = ordinal offset entries p then
                  ((m (ordinal offset entries p)).1,
                    a / (a + b) * ((m (ordinal offset entries p)).2 + (m (ordinal offset entries q)).1))
                  else m (ordinal offset entries j)).1 = (m (ordinal offset entries j)).1 := by
                by_cases hjp : ordinal offset entries j = ordinal offset entries p
                · simp only [hjp, if_true]
                · simp only [hjp, if_false]
              rw [e1, e2]

/-- **C363.** Equalising margins in a round window keeps the sum of the two margins that face each other across every
insulation, the one that closes the window too; it follows that what margin tape gives is kept. -/
theorem gaps_kept (c : Ctx K) (offset : Nat) (entries : List (Entry K)) (m : Margins K) (i j : Nat) (hg : Gap entries i j) :
    (equalise c true offset entries m (ordinal offset entries i)).2 + (equalise c true offset entries m (ordinal offset entries j)).1 =
      (m (ordinal offset entries i)).2 + (m (ordinal offset entries j)).1 := by
  unfold equalise
  have : ∀ (l : List Nat) (m : Margins K),
      (l.foldl (eqStep c true offset entries) m (ordinal offset entries i)).2 +
        (l.foldl (eqStep c true offset entries) m (ordinal offset entries j)).1 =
      (m (ordinal offset entries i)).2 + (m (ordinal offset entries j)).1 := by
    intro l
    induction l with
    | nil => intro m; rfl
    | cons p r ih => intro m; rw [List.foldl_cons, ih, eqStep_gap c offset entries m p i j hg]
  exact this _ m

/-- **C363.** In a round window the margins on both sides of an insulation add up to the distance of the interface at least, and
to no less than they did before, equalised or not. -/
theorem round_distance (c : Ctx K) (on : Bool) (entries pre post : List (Entry K)) (offset v w : Nat) (a b d : K) (m m' : Margins K)
    (he : entries = pre ++ .cond v a :: .ins :: .cond w b :: post) (hl : c.ifaces.lookup (v, w) = some d)
    (h : plan c on true offset entries m = .ok m') :
    max d ((m (offset + condCount pre)).2 + (m (offset + condCount pre + 1)).1) ≤
      (m' (offset + condCount pre)).2 + (m' (offset + condCount pre + 1)).1 := by
  unfold plan at h
  cases hf : floors c [] entries offset m with
  | thrown => rw [hf] at h; cases h
  | ub => rw [hf] at h; cases h
  | ok m1 =>
    rw [hf] at h
    simp only [Res.ok.injEq] at h
    have ht' := ((tape_floor c entries offset m m1 hf).2 _ v w d ⟨pre, post, a, b, he, rfl⟩ hl).2.2.2.2.2.2
    have hg := (tape_floor c entries offset m m1 hf).1
    have ht : max d ((m (offset + condCount pre)).2 + (m (offset + condCount pre + 1)).1) ≤
        (m1 (offset + condCount pre)).2 + (m1 (offset + condCount pre + 1)).1 :=
      max_le ht' (add_le_add (hg _).2 (hg _).1)
    cases on with
    | false => simp only [Bool.false_eq_true, if_false] at h; rw [← h]; exact ht
    | true =>
      simp only [if_true] at h
      have g0 : entries[pre.length]? = some (.cond v a) := by rw [he]; simp
      have g1 : entries[pre.length + 1]? = some .ins := by
        rw [he, List.getElem?_append_right (by omega)]; simp
      have g2 : entries[pre.length + 2]? = some (.cond w b) := by
        rw [he, List.getElem?_append_right (by omega)]; simp
      have hgap : Gap entries pre.length (pre.length + 2) := ⟨⟨v, a, g0⟩, ⟨w, b, g2⟩, g1, Or.inl rfl⟩
      have o0 : ordinal offset entries pre.length = offset + condCount pre := by unfold ordinal; rw [he]; simp
      have o2 : ordinal offset entries (pre.length + 2) = offset + condCount pre + 1 := by
        unfold ordinal
        have : entries.take (pre.length + 2) = pre ++ [.cond v a, .ins] := by
          rw [he, List.take_append]
          simp
        rw [this, condCount_append]
        simp [condCount]
        omega
      have := gaps_kept c offset entries m1 _ _ hgap
      rw [o0, o2, h] at this
      rw [this]
      exact ht

example : Gap ([.cond 0 4, .ins, .cond 1 2, .ins] : List (Entry ℚ)) 2 0 :=
  ⟨⟨1, 2, rfl⟩, ⟨0, 4, rfl⟩, rfl, Or.inr ⟨rfl, rfl⟩⟩

/-! ## Equalising in a rectangular window -/

theorem equalise_two (c : Ctx K) (v w : Nat) (a b : K) (m : Margins K) (h0 : c.ifaces.isEmpty = false) (hab : 0 < a + b) :
    equalise c false 0 [.cond v a, .ins, .cond w b] m = split false 0 1 a b m := by
  unfold equalise
  have hn : ¬ a + b ≤ 0 := not_le.mpr hab
  have s0 : eqStep c false 0 [.cond v a, .ins, .cond w b] m 0 = split false 0 1 a b m := by
    simp [eqStep, h0, partner, splitPair, hn, ordinal, condCount]
  have s1 : ∀ m', eqStep c false 0 [.cond v a, .ins, .cond w b] m' 1 = m' := by
    intro m'; simp [eqStep, h0, partner]
  have s2 : ∀ m', eqStep c false 0 [.cond v a, .ins, .cond w b] m' 2 = m' := by
    intro m'; simp [eqStep, h0, partner]
  have hr : List.range ([.cond v a, .ins, .cond w b] : List (Entry K)).length = [0, 1, 2] := rfl
  rw [hr]
  simp only [List.foldl_cons, List.foldl_nil, s0, s1, s2]

/-- **C364 (partial).** In a rectangular window with two sections, equalising keeps the path over each edge. Missing: more
sections, for which it is false. -/
theorem edges_kept_partial (c : Ctx K) (v w : Nat) (a b : K) (m : Margins K) (h0 : c.ifaces.isEmpty = false) (hab : 0 < a + b) :
    let m' := equalise c false 0 [.cond v a, .ins, .cond w b] m
    (m' 0).1 + (m' 1).1 = (m 0).1 + (m 1).1 ∧ (m' 0).2 + (m' 1).2 = (m 0).2 + (m 1).2 := by
  simp only [equalise_two c v w a b m h0 hab]
  have hne : a + b ≠ 0 := ne_of_gt hab
  simp only [split, setAt, Bool.false_eq_true, if_false, if_true, zero_ne_one, reduceCtorEq]
  constructor <;> field_simp

/-- A primary of two sections with a secondary between, in a rectangular window. -/
def sandwich : List (Entry ℚ) := [.cond 0 4, .ins, .cond 1 2, .ins, .cond 0 4]

/-- The margins of the sections after winding. -/
def marginsOf (n : Nat) (r : Res (Margins ℚ)) : Option (List (ℚ × ℚ)) :=
  match r with
  | .ok m => some ((List.range n).map m)
  | _ => none

/-- **C364, negation.** With three sections the path over each edge between the first two falls short of the distance that
margin tape has given: 17/3 instead of 6. -/
theorem edges_short :
    marginsOf 3 (plan twoWindings false false 0 sandwich (fun _ => (0, 0))) = some [(3, 3), (3, 3), (3, 3)] ∧
    marginsOf 3 (plan twoWindings true false 0 sandwich (fun _ => (0, 0))) =
      some [(4, 4), (5 / 3, 5 / 3), (10 / 3, 10 / 3)] := ⟨by decide +kernel, by decide +kernel⟩

/-! ## The margin that closes a round window -/

/-- **C365 (partial).** With two sections in a round window and the same distance both ways, the gap that closes the window
has the distance too. -/
theorem closing_gap_partial (c : Ctx K) (on : Bool) (v w : Nat) (a b d : K) (m m' : Margins K)
    (hl : c.ifaces.lookup (v, w) = some d) (h : plan c on true 0 [.cond v a, .ins, .cond w b, .ins] m = .ok m') :
    d ≤ (m' 1).2 + (m' 0).1 := by
  unfold plan at h
  cases hf : floors c [] [.cond v a, .ins, .cond w b, .ins] 0 m with
  | thrown => rw [hf] at h; cases h
  | ub => rw [hf] at h; cases h
  | ok m1 =>
    rw [hf] at h
    simp only [Res.ok.injEq] at h
    have ht := (tape_floor c _ 0 m m1 hf).2 0 v w d ⟨[], [.ins], a, b, rfl, rfl⟩ hl
    have hs : d ≤ (m1 1).2 + (m1 0).1 := by linarith [ht.1, ht.2.2.2.1]
    cases on with
    | false => simp only [Bool.false_eq_true, if_false] at h; rw [← h]; exact hs
    | true =>
      simp only [if_true] at h
      have := gaps_kept c 0 [.cond v a, .ins, .cond w b, .ins] m1 2 0 ⟨⟨w, b, rfl⟩, ⟨v, a, rfl⟩, rfl, Or.inr ⟨rfl, rfl⟩⟩
      have o : ordinal 0 ([.cond v a, .ins, .cond w b, .ins] : List (Entry K)) 2 = 1 := by simp [ordinal, condCount]
      have o' : ordinal 0 ([.cond v a, .ins, .cond w b, .ins] : List (Entry K)) 0 = 0 := by simp [ordinal, condCount]
      rw [o, o', h] at this
      rw [this]
      exact hs

/-- Three windings of which only the first and the last need distance between them: the wire of the second is insulated. -/
def threeWindings : Ctx ℚ :=
  ⟨[((0, 1), 0), ((1, 0), 0), ((1, 2), 0), ((2, 1), 0), ((0, 2), 6), ((2, 0), 6)], fun a b => decide (a ≠ b)⟩

/-- **C365, negation.** The last and the first section of a round window get no margin although their interface states one. -/
theorem closing_gap_open :
    marginsOf 3 (plan threeWindings true true 0 [.cond 0 4, .ins, .cond 1 4, .ins, .cond 2 4, .ins] (fun _ => (0, 0))) =
      some [(0, 0), (0, 0), (0, 0)] := by decide +kernel

/-! ## Insulation replaced by margins -/

theorem removeAll_cases (angle : K → K) (c : Ctx K) (offset : Nat) (ws : List Nat) (m : Margins K) (ins : Nat × Nat → Option K)
    (key : Nat × Nat) (x : K) (hx : ins key = some x) :
    removeAll angle c offset ws m ins key = some x ∨
    (removeAll angle c offset ws m ins key = some 0 ∧
      ∃ i, i < ws.length ∧ keyAt ws i = some key ∧ x < angle (heldMargin c offset ws m key i)) := by
  unfold removeAll
  have main : ∀ (l : List Nat) (ins : Nat × Nat → Option K), (∀ i ∈ l, i < ws.length) →
      (ins key = some x ∨ (ins key = some 0 ∧ ∃ i, i < ws.length ∧ keyAt ws i = some key ∧ x < angle (heldMargin c offset ws m key i))) →
      (l.foldl (removeStep angle c offset ws m) ins key = some x ∨ (l.foldl (removeStep angle c offset ws m) ins key = some 0 ∧
        ∃ i, i < ws.length ∧ keyAt ws i = some key ∧ x < angle (heldMargin c offset ws m key i))) := by
    intro l
    induction l with
    | nil => intro ins _ h; exact h
    | cons p r ih =>
      intro ins hl h
      rw [List.foldl_cons]
      refine ih _ (fun i hi => hl i (List.mem_cons_of_mem _ hi)) ?_
      unfold removeStep
      cases hk : keyAt ws p with
      | none => exact h
      | some kp =>
        simp only []
        cases hi : ins kp with
        | none => exact h
        | some z =>
          simp only []
          by_cases hz : z < angle (heldMargin c offset ws m kp p)
          · rw [if_pos hz]
            by_cases hkk : key = kp
            · subst hkk
              right
              refine ⟨by simp, ?_⟩
              rcases h with h | ⟨h, he⟩
              · rw [hi] at h
                cases h
                exact ⟨p, hl p (List.mem_cons_self ..), hk, hz⟩
              · exact he
            · simp only [hkk, if_false]
              exact h
          · rw [if_neg hz]
            exact h
  exact main _ ins (fun i hi => List.mem_range.mp hi) (Or.inl hx)

/-- **C370 (partial).** When the two windings follow each other once in a round window, and not last and first, insulation between
them is removed only if the margins that are planned between their sections are larger. Missing: windings that follow each
other more than once, and the last section with the first, for which it is false. -/
theorem removed_partial (angle : K → K) (hmono : Monotone angle) (c : Ctx K) (on : Bool) (offset : Nat) (ws : List Nat)
    (entries : List (Entry K)) (m m' : Margins K) (ins : Nat × Nat → Option K) (v w i : Nat) (d x : K)
    (hplan : plan c on true offset entries m = .ok m') (hl : c.ifaces.lookup (v, w) = some d)
    (hadj : Adjacent entries offset (offset + i) v w) (hi : i + 1 < ws.length)
    (honce : ∀ j, j < ws.length → keyAt ws j = some (v, w) → j = i)
    (hx : ins (v, w) = some x) (hrem : removeAll angle c offset ws m ins (v, w) ≠ some x) :
    x < angle ((m' (offset + i)).2 + (m' (offset + i + 1)).1) := by
  rcases removeAll_cases angle c offset ws m ins (v, w) x hx with h | ⟨_, j, hj, hk, hlt⟩
  · exact absurd h hrem
  · have := honce j hj hk
    subst this
    obtain ⟨pre, post, a, b, he, hpre⟩ := hadj
    have hr := round_distance c on entries pre post offset v w a b d m m' he hl hplan
    have hcount : condCount pre = j := by omega
    rw [hcount] at hr
    unfold heldMargin at hlt
    rw [hl, Option.getD_some, Nat.mod_eq_of_lt hi] at hlt
    exact lt_of_lt_of_le hlt (hmono hr)

/-- No distance between the windings. -/
def noTape : Ctx ℚ := ⟨[((0, 1), 0), ((1, 0), 0)], fun a b => decide (a ≠ b)⟩

/-- **C370, negation.** A margin added to the first section of four removes also the insulation between the third and the
fourth, which have none. -/
theorem removed_for_others :
    removeAll id noTape 0 [0, 1, 0, 1] (fun i => if i = 0 then (2, 2) else (0, 0)) (fun k => if k.1 = k.2 then none else some 1) (0, 1) =
      some 0 ∧
    marginsOf 4 (plan noTape true true 0 [.cond 0 4, .ins, .cond 1 4, .ins, .cond 0 4, .ins, .cond 1 4, .ins]
      (fun i => if i = 0 then (2, 2) else (0, 0))) = some [(1, 1), (1, 0), (0, 0), (0, 1)] := ⟨by decide +kernel, by decide +kernel⟩

/-- **C370, negation.** The insulation between the last and the first section is removed for a margin that is not given. -/
theorem removed_at_closing :
    removeAll id threeWindings 0 [0, 1, 2] (fun _ => (0, 0)) (fun k => if k.1 = k.2 then none else some 1) (2, 0) = some 0 ∧
    marginsOf 3 (plan threeWindings true true 0 [.cond 0 4, .ins, .cond 1 4, .ins, .cond 2 4, .ins] (fun _ => (0, 0))) =
      some [(0, 0), (0, 0), (0, 0)] := ⟨by decide +kernel, by decide +kernel⟩

example : keyAt [0, 1, 2] 0 = some (0, 1) ∧
    removeAll id twoWindings 0 [0, 1] (fun _ => (0, 0)) (fun k => if k.1 = k.2 then none else some (1 : ℚ)) (0, 1) ≠ some 1 ∧
    marginsOf 2 (plan twoWindings true true 0 [.cond 0 4, .ins, .cond 1 2, .ins] (fun _ => (0, 0))) = some [(4, 4), (2, 2)] :=
  ⟨by decide, by decide +kernel, by decide +kernel⟩

/-! ## Winding again -/

/-- **C366 (partial).** Without equalising, winding again changes no margins. -/
theorem settled_partial (c : Ctx K) (wraps : Bool) (offset : Nat) (entries : List (Entry K)) (m m' : Margins K)
    (h : plan c false wraps offset entries m = .ok m') : plan c false wraps offset entries m' = .ok m' := by
  unfold plan at h ⊢
  cases hf : floors c [] entries offset m with
  | thrown => rw [hf] at h; cases h
  | ub => rw [hf] at h; cases h
  | ok m1 =>
    rw [hf] at h
    simp only [Bool.false_eq_true, if_false, Res.ok.injEq] at h
    subst h
    rw [floors_fixed c entries [] offset m m1 m1 hf (atLeast_refl _)]
    simp

/-- The sum of the margins of two sections on an edge after winding `n + 1` times. -/
def total (r h : K) (n : Nat) : K := h / r - (h / r - 2 * h) * (1 - r) ^ n

theorem total_zero (r h : K) : total r h 0 = 2 * h := by unfold total; ring

theorem total_succ (r h : K) (hr : r ≠ 0) (n : Nat) : total r h (n + 1) = h + (1 - r) * total r h n := by
  unfold total
  rw [pow_succ]
  field_simp
  ring

theorem total_bounds (r h : K) (hr : 0 < r) (hr2 : r ≤ 1 / 2) (hh : 0 ≤ h) (n : Nat) : 2 * h ≤ total r h n ∧ r * total r h n ≤ h := by
  induction n with
  | zero => rw [total_zero]; constructor; exact le_refl _; nlinarith
  | succ n ih =>
    rw [total_succ r h (ne_of_gt hr)]
    constructor
    · nlinarith [ih.1]
    · nlinarith [ih.2, mul_nonneg hh (le_of_lt hr)]

/-- **C366, negation.** Winding the same coil of two sections of different size again and again, with margins equalised, its
margins grow every time: after `n + 1` times they add up to `h / r - (h / r - 2 h) (1 - r) ^ n` on each edge, where `h` is half of
the distance and `r` the part of the space of the smaller section. -/
theorem rewinding_grows (c : Ctx K) (v w : Nat) (a b d : K) (ha : 0 < a) (hab : a ≤ b) (hd : 0 ≤ d)
    (hl : c.ifaces.lookup (v, w) = some d) (n : Nat) :
    let r := a / (a + b)
    let t := total r (d / 2) n
    (∃ m, windings c true false [.cond v a, .ins, .cond w b] (fun _ => (0, 0)) (n + 1) = some m ∧
      m 0 = (r * t, r * t) ∧ m 1 = ((1 - r) * t, (1 - r) * t)) ∧
    (a < b → 0 < d → t < total r (d / 2) (n + 1)) := by
  have hs : 0 < a + b := by linarith
  have hr : 0 < a / (a + b) := div_pos ha hs
  have hr2 : a / (a + b) ≤ 1 / 2 := by rw [div_le_iff₀ hs]; linarith
  have hb : b / (a + b) = 1 - a / (a + b) := by field_simp; ring
  have h0 : c.ifaces.isEmpty = false := by
    cases hi : c.ifaces with
    | nil => rw [hi] at hl; simp at hl
    | cons => rfl
  have hplan : ∀ m : Margins K, ∃ m', plan c true false 0 [.cond v a, .ins, .cond w b] m = .ok m' ∧
      m' 0 = (a / (a + b) * (max (m 0).1 (d / 2) + max (m 1).1 (d / 2)), a / (a + b) * (max (m 0).2 (d / 2) + max (m 1).2 (d / 2))) ∧
      m' 1 = ((1 - a / (a + b)) * (max (m 0).1 (d / 2) + max (m 1).1 (d / 2)),
        (1 - a / (a + b)) * (max (m 0).2 (d / 2) + max (m 1).2 (d / 2))) := by
    intro m
    have hf : floors c [] [.cond v a, .ins, .cond w b] 0 m = .ok (raiseBoth d 1 m) := by
      simp [floors, floorStep, h0, hl]
    refine ⟨split false 0 1 a b (raiseBoth d 1 m), ?_, ?_, ?_⟩
    · unfold plan; rw [hf]; simp [equalise_two c v w a b _ h0 hs]
    · simp [split, setAt, raiseBoth, raised]
    · simp only [split, setAt, raiseBoth, raised, Bool.false_eq_true, if_false, if_true, hb]
      simp
  intro r t
  constructor
  · show ∃ m, windings c true false [.cond v a, .ins, .cond w b] (fun _ => (0, 0)) (n + 1) = some m ∧
      m 0 = (a / (a + b) * total (a / (a + b)) (d / 2) n, a / (a + b) * total (a / (a + b)) (d / 2) n) ∧
      m 1 = ((1 - a / (a + b)) * total (a / (a + b)) (d / 2) n, (1 - a / (a + b)) * total (a / (a + b)) (d / 2) n)
    induction n with
    | zero =>
      obtain ⟨m', hp, e0, e1⟩ := hplan (fun _ => (0, 0))
      have hmax : max (0 : K) (d / 2) = d / 2 := max_eq_right (by linarith)
      simp only [hmax] at e0 e1
      refine ⟨m', by simp [windings, hp], ?_, ?_⟩
      · rw [e0, total_zero]; ring_nf
      · rw [e1, total_zero]; ring_nf
    | succ n ih =>
      obtain ⟨m, hm, e0, e1⟩ := ih
      obtain ⟨m', hp, f0, f1⟩ := hplan m
      obtain ⟨b1, b2⟩ := total_bounds (a / (a + b)) (d / 2) hr hr2 (by linarith) n
      have m0 : max (a / (a + b) * total (a / (a + b)) (d / 2) n) (d / 2) = d / 2 := max_eq_right b2
      have m1 : max ((1 - a / (a + b)) * total (a / (a + b)) (d / 2) n) (d / 2) = (1 - a / (a + b)) * total (a / (a + b)) (d / 2) n :=
        max_eq_left (by nlinarith)
      rw [e0, e1] at f0 f1
      simp only [m0, m1] at f0 f1
      refine ⟨m', ?_, ?_, ?_⟩
      · rw [windings, hm]; simp only [hp]
      · rw [f0, total_succ _ _ (ne_of_gt hr)]
      · rw [f1, total_succ _ _ (ne_of_gt hr)]
  · intro hlt hdp
    show total (a / (a + b)) (d / 2) n < total (a / (a + b)) (d / 2) (n + 1)
    have hr3 : a / (a + b) < 1 / 2 := by rw [div_lt_iff₀ hs]; linarith
    have hpow : 0 < (1 - a / (a + b)) ^ n := pow_pos (by linarith) n
    have hgap : 0 < d / 2 / (a / (a + b)) - 2 * (d / 2) := by
      have : 2 * (d / 2) < d / 2 / (a / (a + b)) := by rw [lt_div_iff₀ hr]; nlinarith
      linarith
    unfold total
    rw [pow_succ]
    have hpos := mul_pos (mul_pos hgap hpow) hr
    nlinarith

example : twoWindings.ifaces.lookup (0, 1) = some 6 ∧ total (1 / 4 : ℚ) 3 0 = 6 ∧ total (1 / 4 : ℚ) 3 1 = 15 / 2 ∧
    total (1 / 4 : ℚ) 3 2 = 69 / 8 := ⟨by decide +kernel, by norm_num [total], by norm_num [total], by norm_num [total]⟩

/-! ## Margins recovered -/

theorem remap_spec (names : List String) : ∀ (s : Memory K) (k : Nat),
    (remap s k names).merged = s.merged ∧
    (∀ j, j < k ∨ k + names.length ≤ j → (remap s k names).margins j = s.margins j ∧ (remap s k names).owners j = s.owners j) ∧
    (∀ i n, names[i]? = some n → (remap s k names).owners (k + i) = some n ∧
      (remap s k names).margins (k + i) = if s.owners (k + i) = some n then s.margins (k + i) else (s.merged n).getD (0, 0)) := by
  induction names with
  | nil => intro s k; exact ⟨rfl, fun _ _ => ⟨rfl, rfl⟩, fun i n h => by simp at h⟩
  | cons n r ih =>
    intro s k
    obtain ⟨h1, h2, h3⟩ := ih (remapOne s k n) (k + 1)
    have hone : (remapOne s k n).merged = s.merged ∧ (remapOne s k n).owners k = some n ∧
        (remapOne s k n).margins k = (if s.owners k = some n then s.margins k else (s.merged n).getD (0, 0)) ∧
        ∀ j, j ≠ k → (remapOne s k n).margins j = s.margins j ∧ (remapOne s k n).owners j = s.owners j := by
      unfold remapOne
      by_cases ho : s.owners k = some n
      · simp [ho]
      · rw [if_neg ho]
        refine ⟨rfl, by simp, by simp [setAt, ho], fun j hj => ⟨by simp [setAt, hj], by simp [hj]⟩⟩
    simp only [remap]
    refine ⟨h1.trans hone.1, ?_, ?_⟩
    · intro j hj
      have hj' : j < k + 1 ∨ k + 1 + r.length ≤ j := by
        rcases hj with h | h
        · left; omega
        · right; simp at h; omega
      have hne : j ≠ k := by
        rcases hj with h | h
        · omega
        · simp at h; omega
      obtain ⟨e1, e2⟩ := h2 j hj'
      obtain ⟨f1, f2⟩ := hone.2.2.2 j hne
      exact ⟨e1.trans f1, e2.trans f2⟩
    · intro i x hx
      cases i with
      | zero =>
        simp only [List.getElem?_cons_zero, Option.some.injEq] at hx
        subst hx
        obtain ⟨e1, e2⟩ := h2 k (Or.inl (by omega))
        simp only [Nat.add_zero]
        exact ⟨e2.trans hone.2.1, e1.trans hone.2.2.1⟩
      | succ i =>
        rw [List.getElem?_cons_succ] at hx
        obtain ⟨e1, e2⟩ := h3 i x hx
        have hk : k + 1 + i = k + (i + 1) := by omega
        rw [hk] at e1 e2
        obtain ⟨f1, f2⟩ := hone.2.2.2 (k + (i + 1)) (by omega)
        rw [f1, f2, hone.1] at e2
        exact ⟨e1, e2⟩

/-- The margin merged is the largest on each edge of those of the winding. -/
theorem mergedOf_spec (n : String) (l : List (String × K × K)) : ∀ acc : Option (K × K),
    (acc = none → (∀ p, (n, p) ∉ l) → mergedOf n l acc = none) ∧
    ((acc ≠ none ∨ ∃ p, (n, p) ∈ l) → ∃ q, mergedOf n l acc = some q ∧
      (∀ p, acc = some p ∨ (n, p) ∈ l → p.1 ≤ q.1 ∧ p.2 ≤ q.2) ∧
      (∃ p, (acc = some p ∨ (n, p) ∈ l) ∧ p.1 = q.1) ∧ (∃ p, (acc = some p ∨ (n, p) ∈ l) ∧ p.2 = q.2)) := by
  induction l with
  | nil =>
    intro acc
    refine ⟨fun h _ => h, fun h => ?_⟩
    rcases h with h | ⟨p, hp⟩
    · cases acc with
      | none => exact absurd rfl h
      | some q =>
        refine ⟨q, rfl, fun p hp => ?_, ⟨q, Or.inl rfl, rfl⟩, ⟨q, Or.inl rfl, rfl⟩⟩
        rcases hp with h | h
        · cases h; exact ⟨le_refl _, le_refl _⟩
        · simp at h
    · simp at hp
  | cons x r ih =>
    intro acc
    obtain ⟨o, p⟩ := x
    simp only [mergedOf]
    by_cases ho : o = n
    · rw [if_pos ho]
      subst ho
      constructor
      · intro _ h
        exact absurd (List.mem_cons_self ..) (h p)
      · intro _
        obtain ⟨q, hq, hle, ⟨p1, hp1, e1⟩, ⟨p2, hp2, e2⟩⟩ := (ih (merge acc p)).2 (Or.inl (by cases acc <;> simp [merge]))
        refine ⟨q, hq, ?_, ?_, ?_⟩
        · intro x hx
          have hbase : ∀ y, (acc = some y ∨ y = p) → y.1 ≤ q.1 ∧ y.2 ≤ q.2 := by
            intro y hy
            cases acc with
            | none =>
              have := hle p (Or.inl rfl)
              rcases hy with h | h
              · cases h
              · subst h; exact this
            | some z =>
              have := hle (max z.1 p.1, max z.2 p.2) (Or.inl rfl)
              simp only [max_le_iff] at this
              rcases hy with h | h
              · cases h; exact ⟨this.1.1, this.2.1⟩
              · subst h; exact ⟨this.1.2, this.2.2⟩
          rcases hx with h | h
          · exact hbase x (Or.inl h)
          · rcases List.mem_cons.mp h with h | h
            · exact hbase x (Or.inr (Prod.mk.inj h).2)
            · exact hle x (Or.inr h)
        · rcases hp1 with h | h
          · cases acc with
            | none => simp only [merge, Option.some.injEq] at h; exact ⟨p, Or.inr (List.mem_cons_self ..), by rw [h]; exact e1⟩
            | some z =>
              simp only [merge, Option.some.injEq] at h
              rw [← h] at e1
              simp only at e1
              rcases max_choice z.1 p.1 with hc | hc
              · exact ⟨z, Or.inl rfl, by rw [← hc]; exact e1⟩
              · exact ⟨p, Or.inr (List.mem_cons_self ..), by rw [← hc]; exact e1⟩
          · exact ⟨p1, Or.inr (List.mem_cons_of_mem _ h), e1⟩
        · rcases hp2 with h | h
          · cases acc with
            | none => simp only [merge, Option.some.injEq] at h; exact ⟨p, Or.inr (List.mem_cons_self ..), by rw [h]; exact e2⟩
            | some z =>
              simp only [merge, Option.some.injEq] at h
              rw [← h] at e2
              simp only at e2
              rcases max_choice z.2 p.2 with hc | hc
              · exact ⟨z, Or.inl rfl, by rw [← hc]; exact e2⟩
              · exact ⟨p, Or.inr (List.mem_cons_self ..), by rw [← hc]; exact e2⟩
          · exact ⟨p2, Or.inr (List.mem_cons_of_mem _ h), e2⟩
    · rw [if_neg ho]
      have hmem : ∀ y, (n, y) ∈ (o, p) :: r ↔ (n, y) ∈ r := by
        intro y
        simp only [List.mem_cons, Prod.mk.injEq]
        exact ⟨fun h => h.resolve_left (fun h => ho h.1.symm), Or.inr⟩
      simp only [hmem]
      exact ih acc

/-- **C367.** Margins of sections are recovered only where nothing is remembered, the margins were not cleared, tape is allowed
and some section has a margin; otherwise what is remembered stays. -/
theorem recovered_only (tape : Bool) (secs : Option (List (String × K × K))) (s : Memory K)
    (h : s.empty = false ∨ s.cleared = true ∨ tape = false ∨ ∀ l, secs = some l → ∀ x ∈ l, x.2.1 ≤ 0 ∧ x.2.2 ≤ 0) :
    recover tape secs s = s := by
  cases secs with
  | none => rfl
  | some l =>
    rcases h with h | h | h | h
    · simp [recover, h]
    · simp [recover, h]
    · simp [recover, h]
    · have : l.any (fun x => decide (0 < x.2.1) || decide (0 < x.2.2)) = false := by
        rw [List.any_eq_false]
        intro x hx
        obtain ⟨h1, h2⟩ := h l rfl x hx
        simp [not_lt.mpr h1, not_lt.mpr h2]
      simp [recover, this]

example : recover (K := ℚ) true (some [("P", 1, 2)]) ⟨true, fun _ => (0, 0), fun _ => none, fun _ => none, true⟩ =
    ⟨true, fun _ => (0, 0), fun _ => none, fun _ => none, true⟩ := recovered_only _ _ _ (Or.inr (Or.inl rfl))

/-- **C367.** When a wound coil is wound again, a section that is where one of its winding was keeps its margins; otherwise it
gets on each edge the largest margin of its winding, and none if its winding had no section; doing it again changes
nothing. -/
theorem recovered_follow (l : List (String × K × K)) (s : Memory K) (names : List String) (he : s.empty = true)
    (hc : s.cleared = false) (hm : ∃ x ∈ l, 0 < x.2.1 ∨ 0 < x.2.2) (i : Nat) (n : String) (hi : names[i]? = some n) :
    let s' := remap (recover true (some l) s) 0 names
    (∀ p, l[i]? = some (n, p) → s'.margins i = p) ∧
    ((∀ p, l[i]? ≠ some (n, p)) →
      ((∀ p, (n, p) ∉ l) → s'.margins i = (0, 0)) ∧
      (∀ p, (n, p) ∈ l → p.1 ≤ (s'.margins i).1 ∧ p.2 ≤ (s'.margins i).2) ∧
      ((∃ p, (n, p) ∈ l) → (∃ p, (n, p) ∈ l ∧ p.1 = (s'.margins i).1) ∧ (∃ p, (n, p) ∈ l ∧ p.2 = (s'.margins i).2))) ∧
    (remap s' 0 names).margins i = s'.margins i := by
  have hany : l.any (fun x => decide (0 < x.2.1) || decide (0 < x.2.2)) = true := by
    rw [List.any_eq_true]
    obtain ⟨x, hx, h⟩ := hm
    exact ⟨x, hx, by simpa using h⟩
  have hrec : recover true (some l) s = ⟨false, fun i => ((l[i]?).map Prod.snd).getD (0, 0), fun i => (l[i]?).map Prod.fst,
      fun n => mergedOf n l none, s.cleared⟩ := by
    simp [recover, he, hc, hany]
  intro s'
  have hs' : s' = remap (recover true (some l) s) 0 names := rfl
  obtain ⟨_, _, h3⟩ := remap_spec names (recover true (some l) s) 0
  obtain ⟨ho, hmg⟩ := h3 i n hi
  rw [← hs', Nat.zero_add] at ho hmg
  have hown : ∀ i, (recover true (some l) s).owners i = (l[i]?).map Prod.fst := by intro i; rw [hrec]
  have hmar : ∀ i, (recover true (some l) s).margins i = ((l[i]?).map Prod.snd).getD (0, 0) := by intro i; rw [hrec]
  have hmer : ∀ n, (recover true (some l) s).merged n = mergedOf n l none := by intro n; rw [hrec]
  rw [hown, hmar, hmer] at hmg
  refine ⟨?_, ?_, ?_⟩
  · intro p hp
    rw [hmg, hp]
    simp
  · intro hno
    have hne : ¬ ((l[i]?).map Prod.fst = some n) := by
      intro e
      rw [Option.map_eq_some_iff] at e
      obtain ⟨⟨o, p⟩, hx, e⟩ := e
      simp only at e
      subst e
      exact hno p hx
    rw [if_neg hne] at hmg
    obtain ⟨hA, hB⟩ := mergedOf_spec n l none
    refine ⟨?_, ?_, ?_⟩
    · intro h; rw [hmg, hA rfl h]; rfl
    · intro p hp
      obtain ⟨q, hq, hle, _⟩ := hB (Or.inr ⟨p, hp⟩)
      rw [hmg, hq]
      exact hle p (Or.inr hp)
    · intro h
      obtain ⟨q, hq, _, ⟨p1, hp1, e1⟩, ⟨p2, hp2, e2⟩⟩ := hB (Or.inr h)
      rw [hmg, hq]
      exact ⟨⟨p1, hp1.resolve_left (by simp), e1⟩, ⟨p2, hp2.resolve_left (by simp), e2⟩⟩
  · obtain ⟨_, _, h3'⟩ := remap_spec names s' 0
    have := (h3' i n hi).2
    rw [Nat.zero_add, ho] at this
    simpa using this

example : let l : List (String × ℚ × ℚ) := [("P", 1, 2), ("S", 3, 1), ("P", 2, 1)]
    let s' := remap (recover true (some l) ⟨true, fun _ => (0, 0), fun _ => none, fun _ => none, false⟩) 0 ["S", "P", "P"]
    (s'.margins 0, s'.margins 1, s'.margins 2) = ((3, 1), (2, 2), (2, 1)) := by decide +kernel

/-! ## Preloading and failing -/

/-- **C368 (partial).** Margins preloaded into a coil that has none are those of its first sections, also after the vector
grows. -/
theorem preloaded_partial (pairs : List (K × K)) (n i : Nat) (p : K × K) (h : pairs[i]? = some p) :
    (grown n (preload [] pairs))[i]? = some p := by
  have hi : i < pairs.length := (List.getElem?_eq_some_iff.mp h).1
  unfold grown preload
  rw [List.nil_append, List.getElem?_append_left hi]
  exact h

/-- **C368, negation.** Margins preloaded into a coil that was wound, or had margins preloaded, are not those of its first
sections. -/
theorem preloaded_elsewhere (pairs : List (K × K)) (n : Nat) (vector : List (K × K)) (i : Nat) :
    (preload (grown n vector) pairs)[i + (grown n vector).length]? = pairs[i]? ∧
    (i < (grown n vector).length → (preload (grown n vector) pairs)[i]? = (grown n vector)[i]?) := by
  unfold preload
  constructor
  · rw [List.getElem?_append_right (by omega)]
    congr 1
    omega
  · intro h
    rw [List.getElem?_append_left h]

/-- After winding two sections, margins of 2 preloaded for them are ignored. -/
example : (preload (grown 2 []) [((2 : ℚ), (2 : ℚ)), (2, 2)]) = [(0, 0), (0, 0), (2, 2), (2, 2)] := by decide +kernel

/-- **C369 (partial).** Winding that fails without turns leaves the margins as they were. -/
theorem failed_restores_partial (inner : Memory K → Ending × Memory K × Bool) (s : Memory K) (s' : Memory K)
    (h : inner s = (.failed, s', false)) : wind inner s = (.failed, s) := by
  unfold wind
  rw [h]
  simp

/-- **C369, negation.** Winding that throws after the margins are recovered, as for planar wires with real winding
geometry, leaves them recovered. -/
theorem thrown_keeps (tape : Bool) (secs : Option (List (String × K × K))) (rest : Memory K → Ending × Memory K × Bool)
    (s : Memory K) : wind (windInner tape true secs rest) s = (.thrown, recover tape secs s) := rfl

/-- The margins of a coil read from a file stay recovered after such an exception. -/
example : (wind (windInner true true (some [("P", (1 : ℚ), 1)]) (fun s => (.wound, s, true)))
    ⟨true, fun _ => (0, 0), fun _ => none, fun _ => none, false⟩).2.margins 0 = (1, 1) := by decide +kernel

end Verif.Margins
