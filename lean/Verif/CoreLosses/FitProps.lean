import Mathlib.Data.List.Perm.Basic
import Mathlib.Tactic.Linarith
import Mathlib.Tactic.NormNum
import Mathlib.Algebra.Order.Field.Rat
import Verif.CoreLosses.Fit
import Verif.CoreLosses.SelectProps

/-!
# Core losses: points and ranges of the coefficients fitted (C161)
-/

set_option linter.unusedSimpArgs false
set_option linter.unusedSectionVars false

namespace Verif.CoreLosses

variable {K : Type} [Field K] [LinearOrder K]

/-- The points of some chunks, one after the other. -/
def pointsOf (l : List (Chunk K)) : List (Measured K) := l.flatMap Prod.snd

theorem joinBack_spec (u : ℕ) (a : Chunk K) (l l' : List (Chunk K)) (h : joinBack u a l = some l') :
    l'.length = l.length ∧ (pointsOf l').Perm (pointsOf (a :: l)) := by
  induction l generalizing a l' with
  | nil => simp [joinBack] at h
  | cons b l ih =>
    unfold joinBack at h
    split_ifs at h with hb
    · simp only [Option.some.injEq] at h
      subst h
      exact ⟨by simp, by simp [pointsOf]⟩
    · cases hj : joinBack u b l with
      | none => rw [hj] at h; simp at h
      | some m =>
        rw [hj] at h; simp at h; subst h
        obtain ⟨h1, h2⟩ := ih b m hj
        refine ⟨by simp [h1], ?_⟩
        simp only [pointsOf, List.flatMap_cons] at h2 ⊢
        exact h2.append_left _

theorem join_spec (u : ℕ) (l l' : List (Chunk K)) (h : join u l = some l') :
    l'.length + 1 = l.length ∧ l' ≠ [] ∧ (pointsOf l').Perm (pointsOf l) := by
  match l, h with
  | a :: b :: l, h =>
    simp only [join] at h
    split_ifs at h with hb
    · simp only [Option.some.injEq] at h
      subst h
      refine ⟨by simp, by simp, ?_⟩
      simp only [pointsOf, List.flatMap_cons]
      rw [← List.append_assoc]
      exact List.perm_append_comm.append_right _
    · obtain ⟨h1, h2⟩ := joinBack_spec u a (b :: l) l' h
      refine ⟨by simp [h1], ?_, h2⟩
      intro he; subst he; simp at h1

theorem joinBack_none (u : ℕ) (a : Chunk K) (l : List (Chunk K)) (h : joinBack u a l = none) : ∀ c ∈ l, u < c.2.length := by
  induction l generalizing a with
  | nil => simp
  | cons b l ih =>
    unfold joinBack at h
    split_ifs at h with hb
    cases hj : joinBack u b l with
    | none =>
      intro c hc
      rcases List.mem_cons.mp hc with rfl | hc
      · omega
      · exact ih b hj c hc
    | some m => rw [hj] at h; simp at h

theorem join_none (u : ℕ) (a b : Chunk K) (l : List (Chunk K)) (h : join u (a :: b :: l) = none) :
    ∀ c ∈ a :: b :: l, u < c.2.length := by
  simp only [join] at h
  split_ifs at h with hb
  have := joinBack_none u a (b :: l) h
  intro c hc
  rcases List.mem_cons.mp hc with rfl | hc
  · omega
  · exact this c hc

/-- C161: once cleaned every chunk has more points than coefficients sought, which are as many as at first or three, and no point is
lost or repeated by it; what is refused has three points at most. -/
theorem clean_spec (u : ℕ) (turns : ℕ) (l : List (Chunk K)) (hl : l ≠ []) (ht : l.length ≤ turns) :
    (∃ u' l', clean u turns l = .ok (u', l') ∧ l' ≠ [] ∧ (u' = u ∨ u' = 3) ∧ (∀ c ∈ l', u' < c.2.length) ∧
      (pointsOf l').Perm (pointsOf l)) ∨
    (clean u turns l = .throws .tooFewPoints ∧ (pointsOf l).length ≤ 3) := by
  induction turns generalizing l with
  | zero => exact absurd (List.length_eq_zero_iff.mp (Nat.le_zero.mp ht)) hl
  | succ n ih =>
    unfold clean
    match l, hl with
    | [a], _ =>
      simp only []
      by_cases h1 : a.2.length ≤ u
      · by_cases h2 : a.2.length > 3
        · rw [if_pos h1, if_pos h2]
          exact Or.inl ⟨3, [a], rfl, by simp, Or.inr rfl, by simpa using h2, List.Perm.refl _⟩
        · rw [if_pos h1, if_neg h2]
          exact Or.inr ⟨rfl, by simpa [pointsOf] using h2⟩
      · rw [if_neg h1]
        exact Or.inl ⟨u, [a], rfl, by simp, Or.inl rfl, by simpa using h1, List.Perm.refl _⟩
    | a :: b :: l, _ =>
      simp only []
      cases hj : join u (a :: b :: l) with
      | none =>
        exact Or.inl ⟨u, _, rfl, by simp, Or.inl rfl, join_none u a b l hj, List.Perm.refl _⟩
      | some m =>
        simp only []
        obtain ⟨h1, h2, h3⟩ := join_spec u _ m hj
        rcases ih m h2 (by omega) with ⟨u', l', h, hne, hu', hc, hp⟩ | ⟨h, hle⟩
        · exact Or.inl ⟨u', l', h, hne, hu', hc, hp.trans h3⟩
        · exact Or.inr ⟨h, by rw [← h3.length_eq]; exact hle⟩

/-- C161: the points are refused as too few exactly when there are three at most. -/
theorem too_few (u : ℕ) (hu : 3 ≤ u) (l : List (Chunk K)) (hl : l ≠ []) :
    clean u l.length l = .throws .tooFewPoints ↔ (pointsOf l).length ≤ 3 := by
  rcases clean_spec u l.length l hl (le_refl _) with ⟨u', l', h, hne, hu', hc, hp⟩ | ⟨h, hle⟩
  · rw [h]
    constructor
    · intro h'; simp at h'
    · intro hle
      exfalso
      obtain ⟨c, m, rfl⟩ := List.exists_cons_of_ne_nil hne
      have h1 := hc c (by simp)
      have h2 : c.2.length ≤ (pointsOf (c :: m)).length := by simp [pointsOf]
      rw [hp.length_eq] at h2
      rcases hu' with rfl | rfl <;> omega
  · rw [h]; simp [hle]

/-- Ranges that follow one another from a frequency to another. -/
def Follow (lo hi : K) : List (K × K) → Prop
  | [] => lo = hi
  | r :: l => r.1 = lo ∧ Follow r.2 hi l

theorem joinBack_follow (u : ℕ) (a : Chunk K) (l l' : List (Chunk K)) (lo hi : K) (hne : ∀ c ∈ l, c.2 ≠ [])
    (hf : Follow lo hi ((a :: l).map Prod.fst)) (h : joinBack u a l = some l') :
    Follow lo hi (l'.map Prod.fst) ∧ (a.2 ≠ [] → ∀ c ∈ l', c.2 ≠ []) := by
  induction l generalizing a l' lo with
  | nil => simp [joinBack] at h
  | cons b l ih =>
    unfold joinBack at h
    split_ifs at h with hb
    · simp only [Option.some.injEq] at h
      subst h
      have hbne := hne b (by simp)
      constructor
      · simp only [List.map_cons, Follow, widened, if_neg hbne] at hf ⊢
        exact ⟨hf.1, hf.2.2⟩
      · intro ha c hc
        rcases List.mem_cons.mp hc with rfl | hc
        · simpa using fun h => absurd h ha
        · exact hne c (by simp [hc])
    · cases hj : joinBack u b l with
      | none => rw [hj] at h; simp at h
      | some m =>
        rw [hj] at h; simp at h; subst h
        simp only [List.map_cons, Follow] at hf
        obtain ⟨h1, h2⟩ := ih b m a.1.2 (fun c hc => hne c (by simp [hc])) (by simpa [Follow] using hf.2) hj
        refine ⟨by simp only [List.map_cons, Follow]; exact ⟨hf.1, h1⟩, ?_⟩
        intro ha c hc
        rcases List.mem_cons.mp hc with rfl | hc
        · exact ha
        · exact h2 (hne b (by simp)) c hc

theorem join_follow (u : ℕ) (l l' : List (Chunk K)) (lo hi : K) (hne : ∀ c ∈ l, c.2 ≠ []) (hf : Follow lo hi (l.map Prod.fst))
    (h : join u l = some l') : Follow lo hi (l'.map Prod.fst) ∧ ∀ c ∈ l', c.2 ≠ [] := by
  match l, h with
  | a :: b :: l, h =>
    simp only [join] at h
    split_ifs at h with hb
    · simp only [Option.some.injEq] at h
      subst h
      have hane := hne a (by simp)
      constructor
      · simp only [List.map_cons, Follow, widened, if_neg hane] at hf ⊢
        exact ⟨hf.1, hf.2.2⟩
      · intro c hc
        rcases List.mem_cons.mp hc with rfl | hc
        · simpa using fun _ => hane
        · exact hne c (by simp [hc])
    · obtain ⟨h1, h2⟩ := joinBack_follow u a (b :: l) l' lo hi (fun c hc => hne c (by simp [hc])) hf h
      exact ⟨h1, h2 (hne a (by simp))⟩

theorem clean_follow (u turns : ℕ) (l l' : List (Chunk K)) (u' : ℕ) (lo hi : K) (hne : ∀ c ∈ l, c.2 ≠ [])
    (hf : Follow lo hi (l.map Prod.fst)) (h : clean u turns l = .ok (u', l')) : Follow lo hi (l'.map Prod.fst) := by
  induction turns generalizing l with
  | zero => simp [clean] at h; rw [← h.2]; exact hf
  | succ n ih =>
    unfold clean at h
    match l with
    | [] => simp [join] at h; rw [h.2]; exact hf
    | [a] =>
      simp only [] at h
      split_ifs at h
      · simp at h; rw [← h.2]; exact hf
      · simp at h; rw [← h.2]; exact hf
    | a :: b :: l =>
      simp only [] at h
      cases hj : join u (a :: b :: l) with
      | none => rw [hj] at h; simp at h; rw [← h.2]; exact hf
      | some m =>
        rw [hj] at h
        simp only [] at h
        obtain ⟨h1, h2⟩ := join_follow u _ m lo hi hne hf hj
        exact ih m h2 h1 h

/-- C161: ranges that follow one another, each with a point at least, are joined into ranges that follow one another from the same
frequency to the same frequency. -/
theorem ranges_follow_partial (points : List (Measured K)) (ranges out : List (K × K)) (n : ℕ) (lo hi : K) (h2 : 2 ≤ ranges.length)
    (hf : Follow lo hi ranges) (hp : ∀ r ∈ ranges, ∃ p ∈ points, r.1 * (8 / 10) ≤ p.f ∧ p.f ≤ r.2 * (12 / 10))
    (h : fitted points ranges = .ok (n, out)) : Follow lo hi out := by
  match ranges, h2 with
  | r :: r' :: rest, _ =>
    unfold fitted at h
    simp only [List.cons_ne_nil, if_false] at h
    cases hc : clean (unknowns points) (assign points (r :: r' :: rest)).length (assign points (r :: r' :: rest)) with
    | ok x =>
      rw [hc] at h
      simp only [Res.bind] at h
      cases hr : refusal x.2 with
      | some e => rw [hr] at h; simp at h
      | none =>
        rw [hr] at h
        simp only [Res.ok.injEq, Prod.mk.injEq] at h
        rw [← h.2]
        apply clean_follow _ _ _ x.2 x.1 lo hi _ _ hc
        · intro c hc
          simp only [assign, List.mem_map] at hc
          obtain ⟨s, hs, rfl⟩ := hc
          obtain ⟨p, hp1, hp2⟩ := hp s hs
          intro he
          have : p ∈ points.filter fun p => decide (s.1 * (8 / 10) ≤ p.f ∧ p.f ≤ s.2 * (12 / 10)) :=
            List.mem_filter.mpr ⟨hp1, by simpa using hp2⟩
          simp only [] at he
          rw [he] at this
          simp at this
        · have : (assign points (r :: r' :: rest)).map Prod.fst = r :: r' :: rest := by
            simp [assign, List.map_map, Function.comp_def]
          rw [this]; exact hf
    | nan => rw [hc] at h; simp [Res.bind] at h
    | throws e => rw [hc] at h; simp [Res.bind] at h
    | ub => rw [hc] at h; simp [Res.bind] at h

/-- C161: a point goes to every range it is within, by a margin of a fifth. -/
theorem assigned (points : List (Measured K)) (ranges : List (K × K)) (c : Chunk K) (hc : c ∈ assign points ranges) (p : Measured K) :
    p ∈ c.2 ↔ p ∈ points ∧ c.1.1 * (8 / 10) ≤ p.f ∧ p.f ≤ c.1.2 * (12 / 10) := by
  simp only [assign, List.mem_map] at hc
  obtain ⟨s, _, rfl⟩ := hc
  simp [List.mem_filter]

/-- C161: what is fitted has two frequencies and two flux densities in each range, or it is refused. -/
theorem refusal_spec (l : List (Chunk K)) :
    refusal l = none ↔ ∀ c ∈ l, (∃ p ∈ c.2, ∃ q ∈ c.2, p.f ≠ q.f) ∧ ∃ p ∈ c.2, ∃ q ∈ c.2, p.peak ≠ q.peak := by
  have key : ∀ (m : List (Measured K)) (g : Measured K → K), 2 ≤ (m.map g).eraseDups.length ↔ ∃ p ∈ m, ∃ q ∈ m, g p ≠ g q := by
    intro m g
    constructor
    · intro h
      match m with
      | [] => simp at h
      | a :: m =>
        by_contra hc
        push Not at hc
        have : ((a :: m).map g).eraseDups = [g a] := by
          rw [List.map_cons, List.eraseDups_cons]
          have : (m.map g).filter (fun b => !b == g a) = [] := by
            rw [List.filter_eq_nil_iff]
            intro x hx
            obtain ⟨y, hy, rfl⟩ := List.mem_map.mp hx
            have := hc y (by simp [hy]) a (by simp)
            simp [this]
          rw [this]; simp
        rw [this] at h; simp at h
    · rintro ⟨p, hp, q, hq, hne⟩
      have h1 : g p ∈ (m.map g).eraseDups := by rw [List.mem_eraseDups]; exact List.mem_map_of_mem hp
      have h2 : g q ∈ (m.map g).eraseDups := by rw [List.mem_eraseDups]; exact List.mem_map_of_mem hq
      match hl : (m.map g).eraseDups with
      | [] => rw [hl] at h1; simp at h1
      | [x] => rw [hl] at h1 h2; simp at h1 h2; exact absurd (h1.trans h2.symm) hne
      | _ :: _ :: _ => simp
  induction l with
  | nil => simp [refusal]
  | cons c l ih =>
    unfold refusal
    by_cases h1 : (c.2.map Measured.f).eraseDups.length < 2
    · rw [if_pos h1]
      simp only [reduceCtorEq, false_iff]
      intro h
      exact absurd ((key c.2 Measured.f).mpr (h c (by simp)).1) (by omega)
    · rw [if_neg h1]
      by_cases h2 : (c.2.map Measured.peak).eraseDups.length < 2
      · rw [if_pos h2]
        simp only [reduceCtorEq, false_iff]
        intro h
        exact absurd ((key c.2 Measured.peak).mpr (h c (by simp)).2) (by omega)
      · rw [if_neg h2]
        refine ih.trans ?_
        constructor
        · intro h x hx
          rcases List.mem_cons.mp hx with rfl | hx
          · exact ⟨(key _ _).mp (by omega), (key _ _).mp (by omega)⟩
          · exact h x hx
        · intro h x hx
          exact h x (by simp [hx])

/-- Points from 20 kHz to 50 kHz and from 5 MHz to 8 MHz. -/
def apart : List (Measured ℚ) :=
  [⟨20000, 1, 25⟩, ⟨30000, 2, 25⟩, ⟨40000, 3, 25⟩, ⟨50000, 4, 25⟩, ⟨5000000, 1, 25⟩, ⟨6000000, 2, 25⟩, ⟨7000000, 3, 25⟩, ⟨8000000, 4, 25⟩]

/-- C161 fails: a range without points is dropped, which leaves a hole between those that followed one another. -/
theorem empty_range_hole :
    fitted apart [(10000, 100000), (100000, 1000000), (1000000, 10000000)] = .ok (3, [(10000, 100000), (1000000, 10000000)]) := by
  decide +kernel

/-- C161: without ranges, and with points enough, the first of them is read all the same. -/
theorem no_ranges (points : List (Measured K)) : fitted points [] = .ub ↔ 3 < points.length := by
  unfold fitted
  simp only []
  split_ifs with h
  · simp; omega
  · simp; omega

example : fitted apart [(10000, 100000), (100000, 10000000)] = .ok (3, [(10000, 100000), (100000, 10000000)]) := by decide +kernel
example : fitted (apart.drop 2) [(10000, 100000), (100000, 10000000)] = .ok (3, [(10000, 10000000)]) := by decide +kernel

end Verif.CoreLosses
