import Mathlib.Tactic.Linarith
import Mathlib.Tactic.Ring
import Mathlib.Tactic.FieldSimp
import Mathlib.Tactic.NormNum
import Mathlib.Tactic.Positivity
import Mathlib.Algebra.Order.Field.Basic
import Mathlib.Algebra.Order.Field.Rat
import Mathlib.Order.Monotone.Basic
import Mathlib.Tactic.IntervalCases
import Verif.Magnetic.Model
import Verif.CoreData.Props

/-!
# What holds of magnetics as a whole (C199–C204)
-/

set_option linter.unusedSimpArgs false
set_option linter.unusedSectionVars false

namespace Verif.Magnetic

open Verif.CoreData (Size Maximum fits)

/-! ## C199: the dimensions that are remembered -/

/-- An operation asks for the dimensions. -/
def Op.isQuestion : Op → Bool
  | .ask => true
  | .fits _ _ => true
  | _ => false

/-- The core an operation brings. -/
def Op.core? : Op → Option Size
  | .setCore s => some s
  | .read core _ => core
  | _ => none

/-- The coil an operation brings. -/
def Op.coil? : Op → Option Coil
  | .setCoil c => some c
  | .read _ coil => coil
  | _ => none

/-- The last core that some operations brought. -/
def lastCore (ops : List Op) : Option Size := ops.reverse.findSome? Op.core?

/-- The last coil that some operations brought. -/
def lastCoil (ops : List Op) : Option Coil := ops.reverse.findSome? Op.coil?

theorem ask_keeps_parts (o : Object) : (ask o).1.core = o.core ∧ (ask o).1.coil = o.coil := by
  unfold ask
  split
  · exact ⟨rfl, rfl⟩
  · split <;> exact ⟨rfl, rfl⟩

/-- **C199.** The parts of a magnetic are, after any history of settings, readings and questions, the last ones it was given. -/
theorem parts_after (o : Object) (ops : List Op) :
    (run o ops).core = (lastCore ops).or o.core ∧ (run o ops).coil = (lastCoil ops).or o.coil := by
  induction ops using List.reverseRecOn with
  | nil => exact ⟨rfl, rfl⟩
  | append_singleton ops op ih =>
    have hrun : run o (ops ++ [op]) = step (run o ops) op := by simp [run]
    have hc : lastCore (ops ++ [op]) = op.core?.or (lastCore ops) := by
      simp only [lastCore, List.reverse_append, List.reverse_cons, List.reverse_nil, List.nil_append, List.cons_append, List.findSome?_cons]
      cases op.core? <;> rfl
    have hl : lastCoil (ops ++ [op]) = op.coil?.or (lastCoil ops) := by
      simp only [lastCoil, List.reverse_append, List.reverse_cons, List.reverse_nil, List.nil_append, List.cons_append, List.findSome?_cons]
      cases op.coil? <;> rfl
    rw [hrun, hc, hl, Option.or_assoc, Option.or_assoc, ← ih.1, ← ih.2]
    cases op with
    | setCore s => exact ⟨rfl, rfl⟩
    | setCoil c => exact ⟨rfl, rfl⟩
    | read core coil => exact ⟨rfl, rfl⟩
    | ask => exact ask_keeps_parts _
    | fits m r => exact ask_keeps_parts _

theorem memo_after_no_question (o : Object) (ops : List Op) (h : ∀ op ∈ ops, op.isQuestion = false) : (run o ops).memo = o.memo := by
  induction ops generalizing o with
  | nil => rfl
  | cons op ops ih =>
    have h1 : (step o op).memo = o.memo := by
      have := h op List.mem_cons_self
      cases op <;> first | rfl | simp [Op.isQuestion] at this
    show (run (step o op) ops).memo = o.memo
    rw [ih _ (fun x hx => h x (List.mem_cons_of_mem _ hx)), h1]

/-- **C199.** The first time a magnetic is asked for its dimensions, after any history without questions, the answer is that of the last parts
it was given: the larger of those of the core and of the coil. -/
theorem first_answer_partial (o : Object) (ops : List Op) (hm : o.memo = none) (h : ∀ op ∈ ops, op.isQuestion = false) :
    (ask (run o ops)).2 = sizeOf ((lastCore ops).or o.core) ((lastCoil ops).or o.coil) := by
  have hmm := (memo_after_no_question o ops h).trans hm
  obtain ⟨h1, h2⟩ := parts_after o ops
  unfold ask
  rw [hmm, ← h1, ← h2]
  cases hs : sizeOf (run o ops).core (run o ops).coil <;> simp [hs]

/-- **C199.** A question that cannot be answered changes nothing, so the magnetic can be completed and asked again. -/
theorem refused_question (o : Object) (h : (ask o).2 = none) : (ask o).1 = o := by
  cases hm : o.memo with
  | some s => simp [ask, hm] at h
  | none =>
    cases hs : sizeOf o.core o.coil with
    | some s => simp [ask, hm, hs] at h
    | none => simp [ask, hm, hs]

theorem memo_stays (o : Object) (s : Size) (h : o.memo = some s) (ops : List Op) : (run o ops).memo = some s := by
  induction ops generalizing o with
  | nil => exact h
  | cons op ops ih =>
    refine ih (step o op) ?_
    have ha : (ask o).1.memo = some s := by simp [ask, h]
    cases op <;> first | exact h | exact ha

/-- **C199.** Once a magnetic has answered, every later answer is the same, whatever is done to it in between: another core, another coil, or
being read from another file. -/
theorem answers_never_change (o : Object) (s : Size) (h : (ask o).2 = some s) (ops : List Op) : (ask (run (ask o).1 ops)).2 = some s := by
  have hm : (ask o).1.memo = some s := by
    cases hm : o.memo with
    | some s' => simpa [ask, hm] using h
    | none =>
      cases hs : sizeOf o.core o.coil with
      | some s' => simpa [ask, hm, hs] using h
      | none => simp [ask, hm, hs] at h
  have hs := memo_stays _ s hm ops
  generalize run (ask o).1 ops = q at hs
  simp [ask, hs]

/-- **C199.** So does every later question of whether it fits: yes exactly when the dimensions first answered are within the maximum. -/
theorem fits_never_changes (o : Object) (s : Size) (h : (ask o).2 = some s) (ops : List Op) (m : Maximum) :
    (fitsIn (run (ask o).1 ops) m false).2 = some true ↔ CoreData.inside s m := by
  have := answers_never_change o s h ops
  simp only [fitsIn, this, Option.map_some, Option.some.injEq]
  exact CoreData.fits_as_it_is s m

/-- A coil with one turn of a millimetre in a bobbin of 10 × 8 × 10. -/
def smallCoil : Coil := { bobbin := ⟨10, 8, 10⟩, turns := some [⟨(4, 0), none, some (1, 1)⟩] }

/-- **C199.** So the dimensions are not always those of the current parts: a magnetic asked with a core of 12 × 12 × 12, then given one of
40 × 40 × 40, answers 12 × 12 × 12 and says it fits where it does not. -/
theorem stale_dimensions :
    let o : Object := ⟨some ⟨12, 12, 12⟩, some smallCoil, none⟩
    let p := run o [.ask, .setCore ⟨40, 40, 40⟩]
    (ask p).2 = some ⟨12, 12, 12⟩ ∧ sizeOf p.core p.coil = some ⟨40, 40, 40⟩ ∧
      (fitsIn p ⟨some 15, some 15, some 15⟩ true).2 = some true := by decide +kernel

example : (ask (run ⟨none, none, none⟩ [.setCore ⟨12, 12, 12⟩, .setCoil smallCoil])).2 = some ⟨12, 12, 12⟩ ∧
    (ask ⟨some ⟨12, 12, 12⟩, none, none⟩).2 = none := by decide +kernel

/-! ## C200: the dimensions hold the parts -/

/-- How far from the centre a turn goes, across. -/
def Turn.across (t : Turn) (s : ℚ × ℚ) : ℚ := |t.seat.1| + s.1 / 2

/-- How far from the centre a turn goes, along. -/
def Turn.along (t : Turn) (s : ℚ × ℚ) : ℚ := |t.seat.2| + s.2 / 2

theorem reach_some (ts : List Turn) (a r : ℚ × ℚ) (h : reach ts a = some r) :
    a.1 ≤ r.1 ∧ a.2 ≤ r.2 ∧ (∀ t ∈ ts, ∃ s, t.size = some s ∧ t.across s ≤ r.1 ∧ t.along s ≤ r.2) ∧
      (∀ b : ℚ, a.1 ≤ b → (∀ t ∈ ts, ∀ s, t.size = some s → t.across s ≤ b) → r.1 ≤ b) ∧
      (∀ b : ℚ, a.2 ≤ b → (∀ t ∈ ts, ∀ s, t.size = some s → t.along s ≤ b) → r.2 ≤ b) := by
  induction ts generalizing a with
  | nil =>
    simp only [reach, Option.some.injEq] at h
    subst h
    simp
  | cons t ts ih =>
    simp only [reach] at h
    split at h
    · simp at h
    · rename_i s hs
      obtain ⟨h1, h2, h3, h4, h5⟩ := ih _ h
      simp only [max_le_iff] at h1 h2
      refine ⟨h1.1, h2.1, ?_, ?_, ?_⟩
      · intro u hu
        rcases List.mem_cons.mp hu with rfl | hu
        · exact ⟨s, hs, h1.2, h2.2⟩
        · exact h3 u hu
      · intro b hb hall
        exact h4 b (max_le hb (hall t List.mem_cons_self s hs)) fun u hu => hall u (List.mem_cons_of_mem _ hu)
      · intro b hb hall
        exact h5 b (max_le hb (hall t List.mem_cons_self s hs)) fun u hu => hall u (List.mem_cons_of_mem _ hu)

theorem reach_none (ts : List Turn) (a : ℚ × ℚ) : reach ts a = none ↔ ∃ t ∈ ts, t.size = none := by
  induction ts generalizing a with
  | nil => simp [reach]
  | cons t ts ih =>
    simp only [reach]
    cases hs : t.size with
    | none => simp [hs]
    | some s => simp [hs, ih]

/-- **C200.** The dimensions are refused exactly when a part is missing: the core, the coil, its turns, or the dimensions of a turn. -/
theorem dimensions_refused (core : Option Size) (coil : Option Coil) :
    sizeOf core coil = none ↔ core = none ∨ coil = none ∨ ∃ c, coil = some c ∧ (c.turns = none ∨ ∃ ts, c.turns = some ts ∧ ∃ t ∈ ts, t.size = none) := by
  cases core with
  | none => simp [sizeOf]
  | some a =>
    cases coil with
    | none => simp [sizeOf]
    | some c =>
      cases ht : c.turns with
      | none => simp [sizeOf, coilSize, ht]
      | some ts => simp [sizeOf, coilSize, ht, reach_none]

theorem sizeOf_some {a : Size} {c : Coil} {s : Size} (h : sizeOf (some a) (some c) = some s) :
    ∃ ts r, c.turns = some ts ∧ reach ts (0, 0) = some r ∧ s = ⟨max a.width (max r.1 c.bobbin.width), max a.height (max r.2 c.bobbin.height),
      max a.depth (max (r.1 + (c.bobbin.width - c.bobbin.depth)) c.bobbin.depth)⟩ := by
  simp only [sizeOf, coilSize] at h
  cases ht : c.turns with
  | none => simp [ht] at h
  | some ts =>
    simp only [ht, Option.map_map, Option.map_eq_some_iff] at h
    obtain ⟨r, hr, hs⟩ := h
    exact ⟨ts, r, rfl, hr, by rw [← hs]; rfl⟩

/-- **C200.** The dimensions hold the core and the bobbin. -/
theorem dimensions_hold_core_and_bobbin (a : Size) (c : Coil) (s : Size) (h : sizeOf (some a) (some c) = some s) :
    a.width ≤ s.width ∧ a.height ≤ s.height ∧ a.depth ≤ s.depth ∧
      c.bobbin.width ≤ s.width ∧ c.bobbin.height ≤ s.height ∧ c.bobbin.depth ≤ s.depth := by
  obtain ⟨ts, r, -, -, rfl⟩ := sizeOf_some h
  simp

/-- **C200.** They hold a turn, both halves of it, if it is within the width and height of the core or of the bobbin; of any other turn they only
hold how far it goes to one side. -/
theorem dimensions_hold_turns_partial (a : Size) (c : Coil) (s : Size) (h : sizeOf (some a) (some c) = some s) (ts : List Turn)
    (hts : c.turns = some ts) (t : Turn) (ht : t ∈ ts) :
    ∃ z, t.size = some z ∧ t.across z ≤ s.width ∧ t.along z ≤ s.height ∧
      (2 * t.across z ≤ max a.width c.bobbin.width → 2 * t.across z ≤ s.width) ∧
      (2 * t.along z ≤ max a.height c.bobbin.height → 2 * t.along z ≤ s.height) := by
  obtain ⟨ts', r, h1, h2, rfl⟩ := sizeOf_some h
  obtain rfl : ts' = ts := by rw [hts] at h1; exact (Option.some.inj h1).symm
  obtain ⟨-, -, h3, -, -⟩ := reach_some _ _ _ h2
  obtain ⟨z, hz, hx, hy⟩ := h3 t ht
  refine ⟨z, hz, ?_, ?_, fun hw => hw.trans ?_, fun hw => hw.trans ?_⟩
  · exact hx.trans (le_max_of_le_right (le_max_left _ _))
  · exact hy.trans (le_max_of_le_right (le_max_left _ _))
  · exact max_le (le_max_left _ _) (le_max_of_le_right (le_max_right _ _))
  · exact max_le (le_max_left _ _) (le_max_of_le_right (le_max_right _ _))

/-- **C200.** They are not larger than needed for that: any width not smaller than that of the core, of the bobbin and of how far each turn goes is
not smaller than the one answered, and the same for the height. -/
theorem dimensions_least (a : Size) (c : Coil) (s : Size) (h : sizeOf (some a) (some c) = some s) (ts : List Turn) (hts : c.turns = some ts)
    (b : ℚ) (hb : 0 ≤ b) :
    (a.width ≤ b → c.bobbin.width ≤ b → (∀ t ∈ ts, ∀ z, t.size = some z → t.across z ≤ b) → s.width ≤ b) ∧
      (a.height ≤ b → c.bobbin.height ≤ b → (∀ t ∈ ts, ∀ z, t.size = some z → t.along z ≤ b) → s.height ≤ b) := by
  obtain ⟨ts', r, h1, h2, rfl⟩ := sizeOf_some h
  obtain rfl : ts' = ts := by rw [hts] at h1; exact (Option.some.inj h1).symm
  obtain ⟨-, -, -, h4, h5⟩ := reach_some _ _ _ h2
  exact ⟨fun ha hc ht => max_le ha (max_le (h4 b hb ht) hc), fun ha hc ht => max_le ha (max_le (h5 b hb ht) hc)⟩

/-- **C200.** The depth answered is that of the core, that of the bobbin, or how far the coil goes across more what the bobbin is wider than deep:
a bobbin deeper than wide makes it smaller. -/
theorem depth_answered (a : Size) (c : Coil) (s : Size) (h : sizeOf (some a) (some c) = some s) (ts : List Turn) (hts : c.turns = some ts)
    (hn : ts ≠ []) (hp : ∀ t ∈ ts, ∀ z, t.size = some z → 0 ≤ t.across z) :
    ∃ t ∈ ts, ∃ z, t.size = some z ∧ (∀ u ∈ ts, ∀ y, u.size = some y → u.across y ≤ t.across z) ∧
      s.depth = max a.depth (max (t.across z + (c.bobbin.width - c.bobbin.depth)) c.bobbin.depth) := by
  obtain ⟨ts', r, h1, h2, rfl⟩ := sizeOf_some h
  obtain rfl : ts' = ts := by rw [hts] at h1; exact (Option.some.inj h1).symm
  obtain ⟨-, -, h3, h4, -⟩ := reach_some _ _ _ h2
  suffices hex : ∃ t ∈ ts', ∃ z, t.size = some z ∧ t.across z = r.1 by
    obtain ⟨t, ht, z, hz, hr⟩ := hex
    refine ⟨t, ht, z, hz, fun u hu y hy => ?_, by rw [hr]⟩
    obtain ⟨y', hy', hle, -⟩ := h3 u hu
    rw [hy] at hy'
    cases hy'
    rw [hr]
    exact hle
  by_contra hne
  push Not at hne
  -- the largest of finitely many numbers below r is below r
  have key : ∀ us : List Turn, (∀ u ∈ us, ∀ y, u.size = some y → u.across y < r.1) → 0 < r.1 →
      ∃ b, 0 ≤ b ∧ b < r.1 ∧ ∀ u ∈ us, ∀ y, u.size = some y → u.across y ≤ b := by
    intro us
    induction us with
    | nil => intro _ h0; exact ⟨0, le_refl _, h0, by simp⟩
    | cons u us ih =>
      intro hlt h0
      obtain ⟨b, hb0, hb, hall⟩ := ih (fun v hv => hlt v (List.mem_cons_of_mem _ hv)) h0
      cases hu : u.size with
      | none =>
        refine ⟨b, hb0, hb, fun v hv y hy => ?_⟩
        rcases List.mem_cons.mp hv with rfl | hv
        · rw [hu] at hy; cases hy
        · exact hall v hv y hy
      | some z =>
        refine ⟨max b (u.across z), le_max_of_le_left hb0, max_lt hb (hlt u List.mem_cons_self z hu), fun v hv y hy => ?_⟩
        rcases List.mem_cons.mp hv with rfl | hv
        · rw [hu] at hy; cases hy; exact le_max_right _ _
        · exact (hall v hv y hy).trans (le_max_left _ _)
  have hlt : ∀ u ∈ ts', ∀ y, u.size = some y → u.across y < r.1 := by
    intro u hu y hy
    obtain ⟨y', hy', hle, -⟩ := h3 u hu
    rw [hy] at hy'
    cases hy'
    exact lt_of_le_of_ne hle (hne u hu y hy)
  obtain ⟨u, hu⟩ := List.exists_mem_of_ne_nil _ hn
  obtain ⟨y, hy, -⟩ := h3 u hu
  have h0 : 0 < r.1 := lt_of_le_of_lt (hp u hu y hy) (hlt u hu y hy)
  obtain ⟨b, hb0, hb, hall⟩ := key ts' hlt h0
  exact absurd (h4 b hb0 hall) (not_le.mpr hb)

/-- A ring of 20 × 20 × 8, whose bobbin has no dimensions, with one turn of a millimetre, that on its way out lies against the outside of the
ring. -/
def ringCoil : Coil := { bobbin := ⟨0, 0, 0⟩, turns := some [⟨(9 / 2, 0), some (21 / 2, 0), some (1, 1)⟩] }

/-- **C200.** So the dimensions do not always hold the coil: the wire on the outside of a ring of 20 goes to 11 on its side, so that wound all
around it needs 22, and 20 is answered; it is said to fit where it does not. -/
theorem ring_does_not_fit :
    sizeOf (some ⟨20, 20, 8⟩) (some ringCoil) = some ⟨20, 20, 11⟩ ∧
      (∃ t ∈ ringCoil.turns.getD [], ∃ z, t.size = some z ∧ (20 : ℚ) < 2 * t.across z) ∧
      (fitsIn ⟨some ⟨20, 20, 8⟩, some ringCoil, none⟩ ⟨some 20, some 20, none⟩ false).2 = some true := by
  refine ⟨by decide +kernel, ⟨_, List.mem_cons_self, (1, 1), rfl, by simp only [Turn.across, Turn.seat]; decide +kernel⟩, by decide +kernel⟩

example : sizeOf (some ⟨12, 12, 12⟩) (some smallCoil) = some ⟨12, 12, 12⟩ := by decide +kernel

/-! ## C201: the rated current -/

section Currents

variable {K : Type} [Field K] [LinearOrder K] [IsStrictOrderedRing K]

theorem grow_cases (rise : K → K) (target : K) (n : ℕ) (hn : n ≤ 19) :
    (∃ k, 19 - n ≤ k ∧ k ≤ 19 ∧ grow rise target (n + 1) (2 ^ (19 - n)) = .found (2 ^ k) ∧ target ≤ rise (2 ^ k) ∧
        ∀ j, 19 - n ≤ j → j < k → rise (2 ^ j) < target) ∨
      (grow rise target (n + 1) (2 ^ (19 - n)) = .throws ∧ ∀ j, 19 - n ≤ j → j ≤ 19 → rise (2 ^ j) < target) := by
  induction n with
  | zero =>
    by_cases h : rise (2 ^ 19) < target
    · right
      refine ⟨?_, fun j hj hj' => ?_⟩
      · have h1 : (2 : K) ^ 19 * 2 > 1000000 := by norm_num
        simp only [grow]
        rw [if_pos h, if_pos h1]
      · obtain rfl : j = 19 := by omega
        exact h
    · left
      refine ⟨19, le_refl _, le_refl _, ?_, not_lt.mp h, fun j hj hj' => by omega⟩
      simp only [grow]
      rw [if_neg h]
  | succ n ih =>
    by_cases h : rise (2 ^ (19 - (n + 1))) < target
    · have hpow : (2 : K) ^ (19 - (n + 1)) * 2 = 2 ^ (19 - n) := by
        rw [← pow_succ]
        congr 1
        omega
      have hle : ¬ (2 : K) ^ (19 - (n + 1)) * 2 > 1000000 := by
        rw [hpow, not_lt]
        have : (2 : K) ^ (19 - n) ≤ 2 ^ 19 := pow_le_pow_right₀ (by norm_num) (by omega)
        refine this.trans (by norm_num)
      have hstep : grow rise target (n + 1 + 1) (2 ^ (19 - (n + 1))) = grow rise target (n + 1) (2 ^ (19 - n)) := by
        rw [grow, if_pos h, if_neg hle, hpow]
      rw [hstep]
      rcases ih (by omega) with ⟨k, h1, h2, h3, h4, h5⟩ | ⟨h1, h2⟩
      · left
        refine ⟨k, by omega, h2, h3, h4, fun j hj hj' => ?_⟩
        rcases Nat.lt_or_ge j (19 - n) with hlt | hge
        · obtain rfl : j = 19 - (n + 1) := by omega
          exact h
        · exact h5 j hge hj'
      · right
        refine ⟨h1, fun j hj hj' => ?_⟩
        rcases Nat.lt_or_ge j (19 - n) with hlt | hge
        · obtain rfl : j = 19 - (n + 1) := by omega
          exact h
        · exact h2 j hge hj'
    · left
      refine ⟨19 - (n + 1), le_refl _, by omega, ?_, not_lt.mp h, fun j hj hj' => by omega⟩
      rw [grow, if_neg h]

/-- The search of a bound ends within its twenty rounds. -/
theorem grow_never_out_of_fuel (rise : K → K) (target : K) : grow rise target 20 1 ≠ .fuel := by
  rcases grow_cases rise target 19 (le_refl _) with ⟨k, -, -, h, -⟩ | ⟨h, -⟩ <;>
    (rw [Nat.sub_self, pow_zero] at h; rw [h]; exact (fun h => nomatch h))

/-- **C201.** A rated current is refused exactly when the rise asked for is not positive or none of the currents 1, 2, 4, ..., 524288 A reaches it. -/
theorem rated_refused (rise : K → K) (target : K) :
    ratedCurrent rise target = none ↔ target ≤ 0 ∨ ∀ k ≤ 19, rise (2 ^ k) < target := by
  unfold ratedCurrent
  by_cases ht : target ≤ 0
  · simp [ht]
  · rw [if_neg ht]
    rcases grow_cases rise target 19 (le_refl _) with ⟨k, -, h1, h2, h3, -⟩ | ⟨h1, h2⟩
    · rw [Nat.sub_self, pow_zero] at h2
      rw [h2]
      simp only [reduceCtorEq, false_iff, not_or, not_forall]
      exact ⟨ht, k, h1, not_lt.mpr h3⟩
    · rw [Nat.sub_self, pow_zero] at h1
      rw [h1]
      simp only [true_iff]
      exact Or.inr fun k hk => h2 k (by omega) hk

theorem bisect_spec (rise : K → K) (target : K) (n : ℕ) (lower upper : K) (h0 : 0 ≤ lower) (hlu : lower < upper)
    (hl : lower = 0 ∨ rise lower < target) (hu : target ≤ rise upper) :
    (lower < bisect rise target n lower upper ∧ bisect rise target n lower upper < upper) ∧
      (|rise (bisect rise target n lower upper) - target| < 1 / 10 ∨
        ∃ lo hi : K, hi - lo = (upper - lower) / 2 ^ n ∧ bisect rise target n lower upper = (lo + hi) / 2 ∧ lower ≤ lo ∧ hi ≤ upper ∧
          (lo = 0 ∨ rise lo < target) ∧ target ≤ rise hi) := by
  induction n generalizing lower upper with
  | zero =>
    simp only [bisect]
    refine ⟨⟨by linarith, by linarith⟩, Or.inr ⟨lower, upper, by simp, by ring, le_refl _, le_refl _, hl, hu⟩⟩
  | succ n ih =>
    have hm1 : lower < 1 / 2 * (lower + upper) := by linarith
    have hm2 : 1 / 2 * (lower + upper) < upper := by linarith
    simp only [bisect]
    by_cases hc : |rise (1 / 2 * (lower + upper)) - target| < 1 / 10
    · rw [if_pos hc]
      exact ⟨⟨hm1, hm2⟩, Or.inl hc⟩
    · rw [if_neg hc]
      by_cases hr : rise (1 / 2 * (lower + upper)) < target
      · rw [if_pos hr]
        obtain ⟨⟨h1, h2⟩, h3⟩ := ih (1 / 2 * (lower + upper)) upper (by linarith) hm2 (Or.inr hr) hu
        refine ⟨⟨by linarith, h2⟩, h3.imp_right ?_⟩
        rintro ⟨lo, hi, e1, e2, e3, e4, e5⟩
        refine ⟨lo, hi, ?_, e2, by linarith, e4, e5⟩
        rw [e1, pow_succ]
        have : (2 : K) ^ n ≠ 0 := by positivity
        field_simp
        ring
      · rw [if_neg hr]
        obtain ⟨⟨h1, h2⟩, h3⟩ := ih lower (1 / 2 * (lower + upper)) h0 hm1 hl (not_lt.mp hr)
        refine ⟨⟨h1, by linarith⟩, h3.imp_right ?_⟩
        rintro ⟨lo, hi, e1, e2, e3, e4, e5⟩
        refine ⟨lo, hi, ?_, e2, e3, by linarith, e5⟩
        rw [e1, pow_succ]
        have : (2 : K) ^ n ≠ 0 := by positivity
        field_simp
        ring

/-- **C201.** For any rise of the temperature with the current, increasing or not, the rated current is positive, below the first power of two that
reaches the rise asked for, and either its own rise is within a tenth of a kelvin of it, or it is the middle of an interval a 2⁴⁰th of that
power wide, whose end reaches it and whose beginning does not, or is zero. -/
theorem rated_found (rise : K → K) (target i : K) (h : ratedCurrent rise target = some i) :
    ∃ k ≤ 19, (∀ j < k, rise (2 ^ j) < target) ∧ target ≤ rise (2 ^ k) ∧ 0 < i ∧ i < 2 ^ k ∧
      (|rise i - target| < 1 / 10 ∨
        ∃ lo hi : K, hi - lo = 2 ^ k / 2 ^ 40 ∧ i = (lo + hi) / 2 ∧ 0 ≤ lo ∧ (lo = 0 ∨ rise lo < target) ∧ target ≤ rise hi) := by
  unfold ratedCurrent at h
  by_cases ht : target ≤ 0
  · rw [if_pos ht] at h
    cases h
  · rw [if_neg ht] at h
    rcases grow_cases rise target 19 (le_refl _) with ⟨k, -, h1, h2, h3, h4⟩ | ⟨h1, -⟩
    · rw [Nat.sub_self, pow_zero] at h2
      rw [h2] at h
      simp only [Option.some.injEq] at h
      have hb := bisect_spec rise target 40 0 (2 ^ k) (le_refl _) (by positivity) (Or.inl rfl) h3
      rw [h] at hb
      refine ⟨k, h1, fun j hj => h4 j (by omega) hj, h3, hb.1.1, hb.1.2, hb.2.imp_right ?_⟩
      rintro ⟨lo, hi, e1, e2, e3, -, e5, e6⟩
      exact ⟨lo, hi, by rw [e1, sub_zero], e2, e3, e5, e6⟩
    · rw [Nat.sub_self, pow_zero] at h1
      rw [h1] at h
      cases h

/-- **C201.** If the rise increases with the current, the rated current either rises the temperature by what was asked for within a tenth of a
kelvin, or is within a microampere of the current that does exactly that. -/
theorem rated_close (rise : K → K) (target i c : K) (hm : StrictMonoOn rise (Set.Ici 0)) (h : ratedCurrent rise target = some i) (hc0 : 0 ≤ c)
    (hc : rise c = target) : |rise i - target| < 1 / 10 ∨ |i - c| < 1 / 1000000 := by
  obtain ⟨k, hk, -, -, -, -, hd⟩ := rated_found rise target i h
  refine hd.imp_right ?_
  rintro ⟨lo, hi, e1, e2, e3, e4, e5⟩
  have hpos : (0 : K) < 2 ^ k / 2 ^ 40 := by positivity
  have hhi : 0 ≤ hi := by linarith
  have hlo : lo ≤ c := by
    rcases e4 with e4 | e4
    · rw [e4]; exact hc0
    · by_contra hlt
      have := hm hc0 e3 (not_le.mp hlt)
      rw [hc] at this
      exact absurd e4 (not_lt.mpr this.le)
  have hch : c ≤ hi := by
    by_contra hlt
    have := hm hhi hc0 (not_le.mp hlt)
    rw [hc] at this
    exact absurd e5 (not_le.mpr this)
  have hw : (2 : K) ^ k / 2 ^ 40 < 1 / 1000000 := by
    have : (2 : K) ^ k ≤ 2 ^ 19 := pow_le_pow_right₀ (by norm_num) hk
    rw [div_lt_div_iff₀ (by positivity) (by norm_num)]
    calc (2 : K) ^ k * 1000000 ≤ 2 ^ 19 * 1000000 := by linarith
      _ < 1 * 2 ^ 40 := by norm_num
  rw [e2, abs_lt]
  constructor <;> linarith

/-- **C201.** It is refused although it is reached below the million of amperes it says: a rise of 55 K, that 550 kA give, is refused, since
1 MA itself is never tried. -/
theorem rated_refused_below_a_million :
    ratedCurrent (fun i : ℚ => i / 10000) 55 = none ∧ (550000 : ℚ) / 10000 = 55 ∧ (550000 : ℚ) < 1000000 := by decide +kernel

example : (ratedCurrent (fun i : ℚ => i ^ 2 * 10) 50).isSome = true ∧ ratedCurrent (fun i : ℚ => i ^ 2 * 10) 40 = some (1023 / 512) := by
  decide +kernel

/-- The temperatures of the winding that are tried. -/
def tried (average : K → K) (ambient : K) : ℕ → K
  | 0 => ambient
  | n + 1 => average (tried average ambient n)

/-- The temperature of the winding has settled at the n-th. -/
def Settled (average : K → K) (ambient : K) (n : ℕ) : Prop := abs (tried average ambient (n + 1) - tried average ambient n) < 5 / 100

theorem tried_shift (average : K → K) (ambient : K) (n : ℕ) : tried average (average ambient) n = tried average ambient (n + 1) := by
  induction n with
  | zero => rfl
  | succ n ih => simp only [tried] at ih ⊢; rw [ih]

theorem steadyLoop_spec (solve : K → K × K) (n : ℕ) (w l : K) :
    ∃ j ≤ n, steadyLoop solve (n + 1) w l = (solve (tried (fun x => (solve x).2) w j)).1 ∧
      (∀ k < j, ¬ Settled (fun x => (solve x).2) w k) ∧ (Settled (fun x => (solve x).2) w j ∨ j = n) := by
  induction n generalizing w l with
  | zero =>
    refine ⟨0, le_refl _, ?_, by simp, Or.inr rfl⟩
    simp [steadyLoop, tried]
  | succ n ih =>
    by_cases h : |(solve w).2 - w| < 5 / 100
    · refine ⟨0, by omega, ?_, by simp, Or.inl h⟩
      rw [steadyLoop, if_pos h]
      rfl
    · obtain ⟨j, h1, h2, h3, h4⟩ := ih (solve w).2 (solve w).1
      refine ⟨j + 1, by omega, ?_, ?_, ?_⟩
      · rw [steadyLoop, if_neg h, h2]
        rw [show tried (fun x => (solve x).2) (solve w).2 j = _ from tried_shift (fun x => (solve x).2) w j]
      · intro k hk
        cases k with
        | zero => exact h
        | succ k =>
          have := h3 k (by omega)
          unfold Settled at this ⊢
          rwa [show tried (fun x => (solve x).2) (solve w).2 k = _ from tried_shift (fun x => (solve x).2) w k,
            show tried (fun x => (solve x).2) (solve w).2 (k + 1) = _ from tried_shift (fun x => (solve x).2) w (k + 1)] at this
      · refine h4.imp ?_ (by omega)
        intro hs
        unfold Settled at hs ⊢
        rwa [show tried (fun x => (solve x).2) (solve w).2 j = _ from tried_shift (fun x => (solve x).2) w j,
          show tried (fun x => (solve x).2) (solve w).2 (j + 1) = _ from tried_shift (fun x => (solve x).2) w (j + 1)] at hs

/-- **C201.** The temperature for a current is the largest one of a solution whose copper is at a temperature obtained by at most five solutions
from that of the ambient: the first one whose average moves less than a twentieth of a kelvin, or the sixth, settled or not. -/
theorem steady_is_a_solution (solve : K → K → K × K) (ambient current : K) :
    ∃ j ≤ 5, steady solve ambient current = (solve current (tried (fun x => (solve current x).2) ambient j)).1 ∧
      (∀ k < j, ¬ Settled (fun x => (solve current x).2) ambient k) ∧ (Settled (fun x => (solve current x).2) ambient j ∨ j = 5) :=
  steadyLoop_spec (solve current) 5 ambient ambient

/-- **C201.** It has settled if each solution moves the average at most `q` times what the copper moved, and `q ^ 5` of the first move is below a
twentieth of a kelvin. -/
theorem steady_settles (solve : K → K → K × K) (ambient current q : K) (hq : 0 ≤ q)
    (hc : ∀ x y, abs ((solve current x).2 - (solve current y).2) ≤ q * abs (x - y))
    (h : q ^ 5 * abs ((solve current ambient).2 - ambient) < 5 / 100) :
    ∃ j ≤ 5, steady solve ambient current = (solve current (tried (fun x => (solve current x).2) ambient j)).1 ∧
      Settled (fun x => (solve current x).2) ambient j := by
  have key : ∀ n, abs (tried (fun x => (solve current x).2) ambient (n + 1) - tried (fun x => (solve current x).2) ambient n) ≤
      q ^ n * abs ((solve current ambient).2 - ambient) := by
    intro n
    induction n with
    | zero => simp [tried]
    | succ n ih =>
      refine (hc _ _).trans ?_
      rw [pow_succ, mul_comm (q ^ n) q, mul_assoc]
      exact mul_le_mul_of_nonneg_left ih hq
  obtain ⟨j, h1, h2, -, h4⟩ := steady_is_a_solution solve ambient current
  refine ⟨j, h1, h2, h4.elim id ?_⟩
  rintro rfl
  exact lt_of_le_of_lt (key 5) h

example : steady (fun i x : ℚ => (x + i, 25 + (x - 25) / 2 + i)) 25 1 = 25 + 31 / 16 + 1 := by decide +kernel

/-! ## C202: the saturation current -/

/-- **C202.** The saturation current times the inductance is the flux linked at saturation; it is refused exactly when the inductance is missing or
not positive. -/
theorem saturation_identity (flux : K) (turns : ℕ) (area : K) (inductance : Option K) :
    (∀ i, saturationCurrent flux turns area inductance = some i → ∃ l, inductance = some l ∧ 0 < l ∧ i * l = flux * turns * area) ∧
      (saturationCurrent flux turns area inductance = none ↔ ∀ l, inductance = some l → l ≤ 0) := by
  cases inductance with
  | none => simp [saturationCurrent]
  | some l =>
    by_cases hl : l ≤ 0
    · simp [saturationCurrent, hl]
    · have hl' : 0 < l := not_le.mp hl
      have he : saturationCurrent flux turns area (some l) = some (flux * turns * area / l) := by
        simp only [saturationCurrent]
        rw [if_neg hl]
      rw [he]
      refine ⟨fun i hi => ?_, ?_⟩
      · cases hi
        exact ⟨l, rfl, hl', div_mul_cancel₀ _ hl'.ne'⟩
      · simp only [reduceCtorEq, Option.some.injEq, forall_eq', false_iff]
        exact hl

/-- **C202.** If the inductance is that of a reluctance, turns² / R, the ampere-turns at saturation do not depend on the turns: they are those that
put the flux density of saturation in the area through the reluctance. -/
theorem saturation_ampere_turns (flux area reluctance : K) (turns : ℕ) (hn : 0 < turns) (hr : 0 < reluctance) :
    ∃ i, saturationCurrent flux turns area (some ((turns : K) ^ 2 / reluctance)) = some i ∧ i * turns = flux * area * reluctance := by
  have hn' : (0 : K) < turns := by exact_mod_cast hn
  have hl : ¬ (turns : K) ^ 2 / reluctance ≤ 0 := not_le.mpr (by positivity)
  refine ⟨_, by simp only [saturationCurrent]; rw [if_neg hl], ?_⟩
  field_simp

/-- **C202.** A larger gap, so a smaller inductance, never lowers it. -/
theorem saturation_antitone (flux area l l' : K) (turns : ℕ) (hf : 0 ≤ flux) (ha : 0 ≤ area) (hl : 0 < l') (hll : l' ≤ l) :
    ∃ i i', saturationCurrent flux turns area (some l) = some i ∧ saturationCurrent flux turns area (some l') = some i' ∧ i ≤ i' := by
  have h1 : ¬ l ≤ 0 := not_le.mpr (hl.trans_le hll)
  have h2 : ¬ l' ≤ 0 := not_le.mpr hl
  refine ⟨_, _, by simp only [saturationCurrent]; rw [if_neg h1], by simp only [saturationCurrent]; rw [if_neg h2], ?_⟩
  exact div_le_div_of_nonneg_left (by positivity) hl hll

example : saturationCurrent (1 / 2 : ℚ) 6 (1 / 10000) (some (1 / 200000)) = some 60 := by decide +kernel

end Currents

/-! ## C203: when two are the same -/

/-- What makes a core the same as another. -/
def Core.key (c : Core) : String × String × ℤ := (c.shape, c.material, c.stacked)

/-- What makes a magnetic the same as another. -/
def Part.key (p : Part) : String × Option (String × String × ℤ) × Option (List Winding) := (p.reference, p.core.map Core.key, p.coil)

/-- The wires of a magnetic are known. -/
def Part.Known (p : Part) : Prop := ∀ ws, p.coil = some ws → ∀ w ∈ ws, w.wire ≠ none

theorem sameWindings_true (as bs : List Winding) (acc : Bool) (hl : as.length = bs.length) :
    sameWindings as bs acc = some true ↔ acc = true ∧ as = bs ∧ ∀ w ∈ as, w.wire ≠ none := by
  induction as generalizing bs acc with
  | nil =>
    obtain rfl : bs = [] := List.length_eq_zero_iff.mp hl.symm
    simp [sameWindings]
  | cons a as ih =>
    cases bs with
    | nil => simp at hl
    | cons b bs =>
      simp only [List.length_cons, Nat.add_right_cancel_iff] at hl
      obtain ⟨t1, p1, w1⟩ := a
      obtain ⟨t2, p2, w2⟩ := b
      cases w1 with
      | none => simp [sameWindings]
      | some x =>
        cases w2 with
        | none => simp [sameWindings]
        | some y =>
          simp only [sameWindings, ih bs _ hl, Bool.and_eq_true, decide_eq_true_eq, List.cons.injEq, Winding.mk.injEq, Option.some.injEq,
            List.forall_mem_cons, ne_eq, reduceCtorEq, not_false_eq_true, true_and]
          tauto

theorem sameWindings_none (as bs : List Winding) (acc : Bool) (hl : as.length = bs.length) :
    sameWindings as bs acc = none ↔ (∃ w ∈ as, w.wire = none) ∨ ∃ w ∈ bs, w.wire = none := by
  induction as generalizing bs acc with
  | nil =>
    obtain rfl : bs = [] := List.length_eq_zero_iff.mp hl.symm
    simp [sameWindings]
  | cons a as ih =>
    cases bs with
    | nil => simp at hl
    | cons b bs =>
      simp only [List.length_cons, Nat.add_right_cancel_iff] at hl
      obtain ⟨t1, p1, w1⟩ := a
      obtain ⟨t2, p2, w2⟩ := b
      cases w1 with
      | none => simp [sameWindings]
      | some x =>
        cases w2 with
        | none => simp [sameWindings]
        | some y => simp [sameWindings, ih bs _ hl]

theorem sameCores_iff (a b : Option Core) (h : a.isSome = b.isSome) : sameCores a b = true ↔ a.map Core.key = b.map Core.key := by
  cases a <;> cases b <;> simp [sameCores, Core.key] at h ⊢
  tauto

/-- **C203.** Two magnetics are the same exactly when they have the same reference, the same shape, material and number of stacks in their cores, or
no core, and the same windings, in turns, parallels and type of wire, all of known wires, or no coil. -/
theorem same_iff (a b : Part) : same a b = some true ↔ a.key = b.key ∧ a.Known := by
  unfold same
  by_cases hp : a.core.isSome ≠ b.core.isSome ∨ a.coil.isSome ≠ b.coil.isSome
  · rw [if_pos hp]
    simp only [Option.some.injEq, Bool.false_eq_true, false_iff, Part.key, Prod.mk.injEq, not_and]
    rintro ⟨-, h1, h2⟩
    exfalso
    rcases hp with hp | hp
    · apply hp
      have := congrArg Option.isSome h1
      simpa using this
    · exact hp (by rw [h2])
  · rw [if_neg hp]
    push Not at hp
    have hcore := sameCores_iff a.core b.core hp.1
    obtain ⟨ra, ca, la⟩ := a
    obtain ⟨rb, cb, lb⟩ := b
    cases la with
    | none =>
      cases lb with
      | some bs => simp at hp
      | none =>
        simp only [Part.key, Part.Known, Option.some.injEq, Bool.and_eq_true, decide_eq_true_eq, Prod.mk.injEq, and_true, reduceCtorEq,
          false_implies, implies_true] at hcore ⊢
        rw [hcore]
    | some as =>
      cases lb with
      | none => simp at hp
      | some bs =>
        simp only [Part.key, Part.Known, Prod.mk.injEq, Option.some.injEq, forall_eq'] at hcore ⊢
        by_cases hl : as.length = bs.length
        · by_cases hk : ra = rb ∧ ca.map Core.key = cb.map Core.key
          · have : ((decide (ra = rb) && sameCores ca cb) && decide (as.length = bs.length)) = true := by
              simp [hk.1, hl, hcore.mpr hk.2]
            rw [if_pos this, sameWindings_true _ _ _ hl]
            simp [hk.1, hk.2]
          · have : ¬ ((decide (ra = rb) && sameCores ca cb) && decide (as.length = bs.length)) = true := by
              simp only [Bool.and_eq_true, decide_eq_true_eq, hcore]
              exact fun h => hk h.1
            rw [if_neg this]
            simp only [Option.some.injEq, Bool.false_eq_true, false_iff]
            exact fun h => hk ⟨h.1.1, h.1.2.1⟩
        · have : ¬ ((decide (ra = rb) && sameCores ca cb) && decide (as.length = bs.length)) = true := by
            simp [hl]
          rw [if_neg this]
          simp only [Option.some.injEq, Bool.false_eq_true, false_iff]
          rintro ⟨⟨-, -, rfl⟩, -⟩
          exact hl rfl

/-- **C203.** So being the same is an equivalence among the magnetics whose wires are known. -/
theorem same_equivalence :
    (∀ a : Part, a.Known → same a a = some true) ∧ (∀ a b : Part, same a b = some true → same b a = some true) ∧
      (∀ a b c : Part, same a b = some true → same b c = some true → same a c = some true) := by
  refine ⟨fun a h => (same_iff a a).mpr ⟨rfl, h⟩, fun a b h => ?_, fun a b c h1 h2 => ?_⟩
  · obtain ⟨h1, h2⟩ := (same_iff a b).mp h
    refine (same_iff b a).mpr ⟨h1.symm, ?_⟩
    have : a.coil = b.coil := congrArg (fun k => k.2.2) h1
    simpa [Part.Known, this] using h2
  · obtain ⟨h1, h2⟩ := (same_iff a b).mp h1
    exact (same_iff a c).mpr ⟨h1.trans ((same_iff b c).mp ‹same b c = some true›).1, h2⟩

/-- **C203.** Comparing two magnetics is refused only for a wire that is not known, and then only if all else but the windings is the same and there
are as many of them. -/
theorem same_refused (a b : Part) :
    same a b = none ↔ a.reference = b.reference ∧ a.core.map Core.key = b.core.map Core.key ∧
      ∃ as bs, a.coil = some as ∧ b.coil = some bs ∧ as.length = bs.length ∧ ((∃ w ∈ as, w.wire = none) ∨ ∃ w ∈ bs, w.wire = none) := by
  unfold same
  by_cases hp : a.core.isSome ≠ b.core.isSome ∨ a.coil.isSome ≠ b.coil.isSome
  · rw [if_pos hp]
    simp only [reduceCtorEq, false_iff]
    rintro ⟨-, h1, as, bs, h2, h3, -⟩
    rcases hp with hp | hp
    · apply hp
      have := congrArg Option.isSome h1
      simpa using this
    · simp [h2, h3] at hp
  · rw [if_neg hp]
    push Not at hp
    have hcore := sameCores_iff a.core b.core hp.1
    obtain ⟨ra, ca, la⟩ := a
    obtain ⟨rb, cb, lb⟩ := b
    cases la with
    | none => simp
    | some as =>
      cases lb with
      | none => simp
      | some bs =>
        simp only [Option.some.injEq] at hcore ⊢
        by_cases hk : ((decide (ra = rb) && sameCores ca cb) && decide (as.length = bs.length)) = true
        · rw [if_pos hk]
          simp only [Bool.and_eq_true, decide_eq_true_eq, hcore] at hk
          rw [sameWindings_none _ _ _ hk.2]
          constructor
          · intro h
            exact ⟨hk.1.1, hk.1.2, as, bs, rfl, rfl, hk.2, h⟩
          · rintro ⟨-, -, as', bs', rfl, rfl, -, h⟩
            exact h
        · rw [if_neg hk]
          simp only [Bool.and_eq_true, decide_eq_true_eq, hcore] at hk
          simp only [reduceCtorEq, false_iff]
          rintro ⟨h1, h2, as', bs', rfl, rfl, h3, -⟩
          exact hk ⟨⟨h1, h2⟩, h3⟩

/-- A magnetic with the given gaps. -/
def gapped (gaps : List ℚ) : Part :=
  { reference := "x", core := some ⟨"E 42", "N87", 1, gaps⟩, coil := some [⟨20, 1, some 0⟩, ⟨5, 2, some 1⟩] }

/-- **C203.** Two magnetics that differ only in their gaps are the same, although their inductances are not. -/
theorem gaps_do_not_count : same (gapped []) (gapped [1 / 1000]) = some true ∧ gapped [] ≠ gapped [1 / 1000] := by decide +kernel

example : (gapped []).Known := by
  rintro ws h
  cases h
  decide

example : same { gapped [] with coil := some [⟨20, 1, none⟩, ⟨5, 2, some 1⟩] } (gapped []) = none := by decide +kernel

theorem differ_self {α : Type} [DecidableEq α] (a : Option α) : differ a a = false := by cases a <;> simp [differ]

theorem differ_comm {α : Type} [DecidableEq α] (a b : Option α) : differ a b = differ b a := by
  cases a <;> cases b <;> simp [differ, eq_comm]

/-- Two data may be those of one wire: one is missing, or they are equal. -/
def Agree {α : Type} (a b : Option α) : Prop := ∀ x y, a = some x → b = some y → x = y

theorem differ_false {α : Type} [DecidableEq α] (a b : Option α) : differ a b = false ↔ Agree a b := by
  cases a <;> cases b <;> simp [differ, Agree]

theorem sameWire_named (a b : Wire) (x y : String) (ha : a.name = some x) (hb : b.name = some y) :
    sameWire a b = true ↔ a.type = b.type ∧ x = y := by
  unfold sameWire
  by_cases ht : a.type = b.type <;> simp [ht, ha, hb]

theorem sameWire_unnamed (a b : Wire) (h : a.name = none ∨ b.name = none) :
    sameWire a b = true ↔ a.type = b.type ∧ (∀ k, Agree (a.dimensions k) (b.dimensions k)) ∧ Agree a.conductors b.conductors ∧
      Agree a.standard b.standard ∧ Agree a.standardName b.standardName := by
  unfold sameWire
  by_cases ht : a.type = b.type
  · rw [if_neg (not_not.mpr ht)]
    have key : (!(decide (∃ k, differ (a.dimensions k) (b.dimensions k) = true) || differ a.conductors b.conductors || differ a.standard b.standard ||
        differ a.standardName b.standardName)) = true ↔ (∀ k, Agree (a.dimensions k) (b.dimensions k)) ∧ Agree a.conductors b.conductors ∧
      Agree a.standard b.standard ∧ Agree a.standardName b.standardName := by
      simp only [← differ_false, Bool.not_eq_true', Bool.or_eq_false_iff, decide_eq_false_iff_not, not_exists, Bool.not_eq_true, and_assoc]
    simp only [ht, true_and]
    rw [← key]
    rcases h with h | h
    · simp only [h]
    · cases hn : a.name <;> simp only [h]
  · rw [if_pos ht]
    simp [ht]

/-- **C203.** Two wires are the same exactly when they are of the same type and, if both have a name, it is the same, and otherwise no datum that both
give differs. -/
theorem sameWire_iff (a b : Wire) :
    sameWire a b = true ↔ a.type = b.type ∧ ((a.name ≠ none ∧ a.name = b.name) ∨ ((a.name = none ∨ b.name = none) ∧
      (∀ k, Agree (a.dimensions k) (b.dimensions k)) ∧ Agree a.conductors b.conductors ∧ Agree a.standard b.standard ∧
      Agree a.standardName b.standardName)) := by
  cases ha : a.name with
  | none => rw [sameWire_unnamed a b (Or.inl ha)]; simp
  | some x =>
    cases hb : b.name with
    | none => rw [sameWire_unnamed a b (Or.inr hb)]; simp
    | some y => rw [sameWire_named a b x y ha hb]; simp

theorem Agree.symm {α : Type} {a b : Option α} (h : Agree a b) : Agree b a := fun x y hx hy => (h y x hy hx).symm

/-- **C203.** Any wire is the same as itself, and the order does not matter. -/
theorem sameWire_reflexive_symmetric (a b : Wire) : sameWire a a = true ∧ sameWire a b = sameWire b a := by
  have hr : ∀ {α : Type} (o : Option α), Agree o o := fun o x y hx hy => Option.some.inj (hx.symm.trans hy)
  constructor
  · rw [sameWire_iff]
    refine ⟨rfl, ?_⟩
    by_cases h : a.name = none
    · exact Or.inr ⟨Or.inl h, fun k => hr _, hr _, hr _, hr _⟩
    · exact Or.inl ⟨h, rfl⟩
  · rw [Bool.eq_iff_iff, sameWire_iff, sameWire_iff]
    have key : ∀ a b : Wire, (a.type = b.type ∧ ((a.name ≠ none ∧ a.name = b.name) ∨ ((a.name = none ∨ b.name = none) ∧
      (∀ k, Agree (a.dimensions k) (b.dimensions k)) ∧ Agree a.conductors b.conductors ∧ Agree a.standard b.standard ∧
      Agree a.standardName b.standardName))) → (b.type = a.type ∧ ((b.name ≠ none ∧ b.name = a.name) ∨ ((b.name = none ∨ a.name = none) ∧
      (∀ k, Agree (b.dimensions k) (a.dimensions k)) ∧ Agree b.conductors a.conductors ∧ Agree b.standard a.standard ∧
      Agree b.standardName a.standardName))) := by
      rintro a b ⟨h1, h2⟩
      refine ⟨h1.symm, h2.imp ?_ ?_⟩
      · rintro ⟨h3, h4⟩
        exact ⟨h4 ▸ h3, h4.symm⟩
      · rintro ⟨h3, h4, h5, h6, h7⟩
        exact ⟨h3.symm, fun k => (h4 k).symm, h5.symm, h6.symm, h7.symm⟩
    exact ⟨key a b, key b a⟩

/-- The middle one gives what both of the others give. -/
def Between {α : Type} (a b c : Option α) : Prop := a ≠ none → c ≠ none → b ≠ none

theorem Agree.trans {α : Type} {a b c : Option α} (hb : Between a b c) (h1 : Agree a b) (h2 : Agree b c) : Agree a c := by
  intro x z hx hz
  have : b ≠ none := hb (by simp [hx]) (by simp [hz])
  obtain ⟨y, hy⟩ := Option.ne_none_iff_exists'.mp this
  exact (h1 x y hx hy).trans (h2 y z hy hz)

/-- **C203.** Being the same wire goes from one to the next among wires that all have a name, and among wires without one if that in the middle gives
every datum that the others give. -/
theorem sameWire_transitive_partial (a b c : Wire)
    (h : (a.name ≠ none ∧ b.name ≠ none ∧ c.name ≠ none) ∨ (a.name = none ∧ b.name = none ∧ c.name = none ∧
      (∀ k, Between (a.dimensions k) (b.dimensions k) (c.dimensions k)) ∧ Between a.conductors b.conductors c.conductors ∧
      Between a.standard b.standard c.standard ∧ Between a.standardName b.standardName c.standardName))
    (h1 : sameWire a b = true) (h2 : sameWire b c = true) : sameWire a c = true := by
  rw [sameWire_iff] at h1 h2 ⊢
  refine ⟨h1.1.trans h2.1, ?_⟩
  rcases h with ⟨ha, hb, hc⟩ | ⟨ha, hb, hc, k1, k2, k3, k4⟩
  · have e1 : a.name = b.name := by
      rcases h1.2 with ⟨-, e⟩ | ⟨e, -⟩
      · exact e
      · exact absurd e (by simp [ha, hb])
    have e2 : b.name = c.name := by
      rcases h2.2 with ⟨-, e⟩ | ⟨e, -⟩
      · exact e
      · exact absurd e (by simp [hb, hc])
    exact Or.inl ⟨ha, e1.trans e2⟩
  · obtain ⟨-, f1, f2, f3, f4⟩ := h1.2.resolve_left fun e => e.1 ha
    obtain ⟨-, g1, g2, g3, g4⟩ := h2.2.resolve_left fun e => e.1 hb
    exact Or.inr ⟨Or.inl ha, fun k => (f1 k).trans (k1 k) (g1 k), f2.trans k2 g2, f3.trans k3 g3, f4.trans k4 g4⟩

/-- A round wire of the given conducting diameter, or of none. -/
def roundWire (name : Option String) (diameter : Option ℚ) : Wire :=
  { type := 0, name := name, dimensions := fun k => if k = 0 then diameter else none, conductors := none, standard := none, standardName := none }

/-- **C203.** But not among all: a wire of half a millimetre is the same as one without diameter, and that as one of a millimetre, but the first
is not the same as the last. -/
theorem sameWire_not_transitive :
    let a := roundWire none (some (1 / 2))
    let b := roundWire none none
    let c := roundWire none (some 1)
    sameWire a b = true ∧ sameWire b c = true ∧ sameWire a c = false := by decide +kernel

/-- **C203.** And two wires of the same name are the same though their diameters differ. -/
theorem sameWire_by_name :
    sameWire (roundWire (some "w") (some (1 / 2))) (roundWire (some "w") (some 1)) = true := by decide +kernel

/-- **C203.** Two inputs are the same exactly when they have the same inductance, the same turns ratios and as many excitations in each operating
point, whatever these excitations are. -/
theorem sameInputs_iff (a b : Inputs) : sameInputs a b = true ↔ a = b := by
  have hz : ∀ {α : Type} [DecidableEq α] (as bs : List α), as.length = bs.length →
      ((List.zipWith (fun x y => decide (x = y)) as bs).all id = true ↔ as = bs) := by
    intro α _ as
    induction as with
    | nil => intro bs h; cases bs <;> simp at h ⊢
    | cons x xs ih =>
      intro bs h
      cases bs with
      | nil => simp at h
      | cons y ys =>
        simp only [List.length_cons, Nat.add_right_cancel_iff] at h
        simp [ih ys h]
  obtain ⟨i1, r1, e1⟩ := a
  obtain ⟨i2, r2, e2⟩ := b
  simp only [sameInputs, Bool.and_eq_true, decide_eq_true_eq, Inputs.mk.injEq]
  by_cases h : i1 = i2 ∧ e1.length = e2.length
  · rw [if_pos h]
    by_cases hr : r1.length = r2.length
    · rw [if_neg (not_not.mpr hr), Bool.and_eq_true, hz _ _ hr, hz _ _ h.2]
      simp [h.1]
    · rw [if_pos hr]
      simp only [Bool.false_eq_true, false_iff]
      rintro ⟨-, rfl, -⟩
      exact hr rfl
  · rw [if_neg h]
    simp only [Bool.false_eq_true, false_iff]
    rintro ⟨rfl, -, rfl⟩
    exact h ⟨rfl, rfl⟩

/-- **C203.** Two whole designs are the same exactly when their magnetics and their inputs are. -/
theorem sameMas_iff (a b : Part × Inputs) : sameMas a b = some true ↔ a.1.key = b.1.key ∧ a.1.Known ∧ a.2 = b.2 := by
  unfold sameMas
  rw [Option.map_eq_some_iff]
  constructor
  · rintro ⟨x, h1, h2⟩
    simp only [Bool.and_eq_true] at h2
    obtain ⟨rfl, h2⟩ := h2
    obtain ⟨h3, h4⟩ := (same_iff _ _).mp h1
    exact ⟨h3, h4, (sameInputs_iff _ _).mp h2⟩
  · rintro ⟨h1, h2, h3⟩
    exact ⟨true, (same_iff _ _).mpr ⟨h1, h2⟩, by simp [(sameInputs_iff _ _).mpr h3]⟩

example : sameMas (gapped [], ⟨1, [4], [2]⟩) (gapped [], ⟨1, [4], [2]⟩) = some true := by decide +kernel

/-! ## C204: reading -/

/-- **C204.** Reading what was written of a magnetic, into one that is new or into any other that lacks the parts the first lacks, gives its parts
back. -/
theorem read_back_partial (o p : Object) (hc : o.core = none → p.core = none) (hl : o.coil = none → p.coil = none) :
    (step p (.read (write o).1 (write o).2)).core = o.core ∧ (step p (.read (write o).1 (write o).2)).coil = o.coil := by
  constructor
  · simp only [step, write]
    cases h : o.core with
    | none => simp [hc h]
    | some s => simp
  · simp only [step, write]
    cases h : o.coil with
    | none => simp [hl h]
    | some s => simp

/-- **C204.** Otherwise a magnetic that is read keeps the part of before: one without a core, such as a bead given by its datasheet, read into one
that has it, has it. -/
theorem read_keeps_the_old : let o : Object := ⟨some ⟨12, 12, 12⟩, some smallCoil, none⟩
    let bead : Object := ⟨none, none, none⟩
    write (step o (.read (write bead).1 (write bead).2)) ≠ write bead := by decide +kernel

/-- **C204.** And, read into one that was already asked for its dimensions, it answers those of before, whatever is read. -/
theorem read_keeps_the_dimensions (o : Object) (s : Size) (h : (ask o).2 = some s) (core : Option Size) (coil : Option Coil) :
    (ask (step (ask o).1 (.read core coil))).2 = some s := answers_never_change o s h [.read core coil]

example : (step (⟨none, none, none⟩ : Object) (.read (some ⟨1, 1, 1⟩) none)).core = some ⟨1, 1, 1⟩ := rfl

end Verif.Magnetic
