import Verif.Maxima.Model
import Mathlib.Algebra.Order.Field.Rat
import Mathlib.Data.List.Perm.Basic
import Mathlib.Tactic.NormNum

/-!
# Properties of the maxima of a set of inputs

`Every f ps vs`: the values `vs` are those of every winding of every operating point, none left out.  `Greatest vs a`: `a` is the greatest of them.
-/

set_option linter.unusedSectionVars false

namespace Verif.Maxima

variable {K : Type} [LinearOrder K] [Zero K]

/-! ## Specification -/

/-- The voltage has a value: the one it was processed with or, failing that, the one of its waveform. -/
def HasVoltage (get : Processed K → Option K) (e : Excitation K) (v : K) : Prop :=
  ∃ s, e.voltage = some s ∧ ((s.processed.bind get = some v) ∨ (s.processed.bind get = none ∧ s.redo.bind get = some v))

/-- The current has a value: the one it was processed with. -/
def HasCurrent (get : Processed K → Option K) (e : Excitation K) (v : K) : Prop := ∃ s, e.current = some s ∧ s.processed.bind get = some v

/-- A value is that of some winding of some operating point. -/
def Somewhere (has : Excitation K → K → Prop) (ps : List (Point K)) (v : K) : Prop := ∃ p ∈ ps, ∃ e ∈ p.windings, has e v

/-- A value is that of a winding, by its index, in some operating point. -/
def At (has : Excitation K → K → Prop) (i : ℕ) (ps : List (Point K)) (v : K) : Prop := ∃ p ∈ ps, ∃ e, p.windings[i]? = some e ∧ has e v

/-- The greatest of some values and zero. -/
def GreatestOrZero (vs : K → Prop) (a : K) : Prop := (vs a ∨ a = 0) ∧ 0 ≤ a ∧ ∀ v, vs v → v ≤ a

/-! ## Lemmas -/

theorem bind_ok {α β : Type} {o : Out α} {f : α → Out β} {b : β} : o.bind f = .ok b ↔ ∃ a, o = .ok a ∧ f a = .ok b := by
  cases o <;> simp [Out.bind]

theorem need_ok {α : Type} {o : Option α} {a : α} : need o = .ok a ↔ o = some a := by
  cases o <;> simp [need]

theorem voltageOf_ok (get : Processed K → Option K) (e : Excitation K) (v : K) : voltageOf get e = .ok v ↔ HasVoltage get e v := by
  unfold voltageOf HasVoltage
  rw [bind_ok]
  simp only [need_ok]
  constructor
  · rintro ⟨s, hs, h⟩
    refine ⟨s, hs, ?_⟩
    cases hp : s.processed with
    | none =>
      rw [hp] at h
      simp only [again, bind_ok, need_ok] at h
      obtain ⟨p, h1, h2⟩ := h
      exact Or.inr ⟨by simp, by rw [h1]; exact h2⟩
    | some p =>
      rw [hp] at h
      simp only at h
      cases hg : get p with
      | none =>
        rw [hg] at h
        simp only [again, bind_ok, need_ok] at h
        obtain ⟨q, h1, h2⟩ := h
        exact Or.inr ⟨by simpa using hg, by rw [h1]; exact h2⟩
      | some w =>
        rw [hg] at h
        simp only [Out.ok.injEq] at h
        exact Or.inl (by simpa using hg.trans (by rw [h]))
  · rintro ⟨s, hs, h⟩
    refine ⟨s, hs, ?_⟩
    cases hp : s.processed with
    | none =>
      rw [hp] at h
      simp only [Option.bind_none, reduceCtorEq, true_and, false_or] at h
      obtain ⟨p, h1, h2⟩ := Option.bind_eq_some_iff.1 h
      simp only [again, bind_ok, need_ok]
      exact ⟨p, h1, h2⟩
    | some p =>
      rw [hp] at h
      simp only [Option.bind_some] at h ⊢
      rcases h with h | ⟨h, h'⟩
      · rw [h]
      · rw [h]
        obtain ⟨q, h1, h2⟩ := Option.bind_eq_some_iff.1 h'
        simp only [again, bind_ok, need_ok]
        exact ⟨q, h1, h2⟩

theorem currentOf_ok (get : Processed K → Option K) (e : Excitation K) (v : K) : currentOf get e = .ok v ↔ HasCurrent get e v := by
  unfold currentOf HasCurrent
  simp only [bind_ok, need_ok, Option.bind_eq_some_iff]

theorem gather_ok {α β : Type} (f : α → Out β) (l : List α) (bs : List β) : gather f l = .ok bs ↔ l.map f = bs.map .ok := by
  induction l generalizing bs with
  | nil => cases bs <;> simp [gather]
  | cons a l ih =>
    simp only [gather, bind_ok]
    constructor
    · rintro ⟨b, h1, cs, h2, h3⟩
      simp only [Out.ok.injEq] at h3
      subst h3
      simp [h1, (ih cs).1 h2]
    · intro h
      cases bs with
      | nil => simp at h
      | cons b bs =>
        simp only [List.map_cons, List.cons.injEq] at h
        exact ⟨b, h.1, bs, (ih bs).2 h.2, rfl⟩

theorem gather_mem {α β : Type} {f : α → Out β} {l : List α} {bs : List β} (h : gather f l = .ok bs) (b : β) : b ∈ bs ↔ ∃ a ∈ l, f a = .ok b := by
  rw [gather_ok] at h
  have : Out.ok b ∈ l.map f ↔ Out.ok b ∈ bs.map .ok := by rw [h]
  simp only [List.mem_map, Out.ok.injEq, exists_eq_right] at this
  exact this.symm

theorem gather_all {α β : Type} {f : α → Out β} {l : List α} {bs : List β} (h : gather f l = .ok bs) : ∀ a ∈ l, ∃ b, f a = .ok b := by
  rw [gather_ok] at h
  intro a ha
  have : f a ∈ bs.map .ok := by rw [← h]; exact List.mem_map_of_mem ha
  obtain ⟨b, -, e⟩ := List.mem_map.1 this
  exact ⟨b, e.symm⟩

theorem gather_total {α β : Type} {f : α → Out β} {l : List α} (h : ∀ a ∈ l, ∃ b, f a = .ok b) : ∃ bs, gather f l = .ok bs := by
  induction l with
  | nil => exact ⟨[], rfl⟩
  | cons a l ih =>
    obtain ⟨b, hb⟩ := h a List.mem_cons_self
    obtain ⟨bs, hbs⟩ := ih fun x hx => h x (List.mem_cons_of_mem _ hx)
    exact ⟨b :: bs, by simp [gather, hb, hbs, Out.bind]⟩

theorem foldl_max (l : List K) (z : K) : (l.foldl max z = z ∨ l.foldl max z ∈ l) ∧ z ≤ l.foldl max z ∧ ∀ v ∈ l, v ≤ l.foldl max z := by
  induction l generalizing z with
  | nil => simp
  | cons a l ih =>
    obtain ⟨h1, h2, h3⟩ := ih (max z a)
    simp only [List.foldl_cons, List.mem_cons]
    refine ⟨?_, (le_max_left _ _).trans h2, ?_⟩
    · rcases h1 with h1 | h1
      · rcases max_choice z a with c | c
        · exact Or.inl (h1.trans c)
        · exact Or.inr (Or.inl (h1.trans c))
      · exact Or.inr (Or.inr h1)
    · rintro v (rfl | hv)
      · exact (le_max_right _ _).trans h2
      · exact h3 v hv

theorem largest_all (f : Excitation K → Out K) (ps : List (Point K)) (a : K) :
    largest (ofAll f) ps = .ok a ↔
      ps ≠ [] ∧ (∀ p ∈ ps, p.windings ≠ []) ∧ (∀ p ∈ ps, ∀ e ∈ p.windings, ∃ v, f e = .ok v) ∧ GreatestOrZero (Somewhere (fun e v => f e = .ok v) ps) a := by
  unfold largest
  by_cases hps : ps = []
  · simp [hps]
  rw [if_neg hps, bind_ok]
  have key : ∀ vs, gather (ofAll f) ps = .ok vs → (∀ p ∈ ps, p.windings ≠ []) ∧ (∀ p ∈ ps, ∀ e ∈ p.windings, ∃ v, f e = .ok v) ∧
      ∀ v, v ∈ vs.flatten ↔ Somewhere (fun e v => f e = .ok v) ps v := by
    intro vs hvs
    have hall := gather_all hvs
    have h1 : ∀ p ∈ ps, p.windings ≠ [] := by
      intro p hp hw
      obtain ⟨b, hb⟩ := hall p hp
      simp [ofAll, hw] at hb
    refine ⟨h1, ?_, ?_⟩
    · intro p hp e he
      obtain ⟨b, hb⟩ := hall p hp
      unfold ofAll at hb
      rw [if_neg (h1 p hp)] at hb
      exact gather_all hb e he
    · intro v
      rw [List.mem_flatten]
      constructor
      · rintro ⟨l, hl, hv⟩
        obtain ⟨p, hp, e⟩ := (gather_mem hvs l).1 hl
        unfold ofAll at e
        rw [if_neg (h1 p hp)] at e
        obtain ⟨x, hx, hxv⟩ := (gather_mem e v).1 hv
        exact ⟨p, hp, x, hx, hxv⟩
      · rintro ⟨p, hp, x, hx, hxv⟩
        obtain ⟨b, hb⟩ := hall p hp
        refine ⟨b, (gather_mem hvs b).2 ⟨p, hp, hb⟩, ?_⟩
        unfold ofAll at hb
        rw [if_neg (h1 p hp)] at hb
        exact (gather_mem hb v).2 ⟨x, hx, hxv⟩
  constructor
  · rintro ⟨vs, hvs, h⟩
    simp only [Out.ok.injEq] at h
    subst h
    obtain ⟨k1, k2, k3⟩ := key vs hvs
    obtain ⟨m1, m2, m3⟩ := foldl_max vs.flatten (0 : K)
    exact ⟨hps, k1, k2, ⟨m1.symm.imp_left (k3 _).1, m2, fun v hv => m3 v ((k3 v).2 hv)⟩⟩
  · rintro ⟨-, h1, h2, h3, h4, h5⟩
    obtain ⟨vs, hvs⟩ := gather_total (f := ofAll f) (l := ps) (by
      intro p hp
      unfold ofAll
      rw [if_neg (h1 p hp)]
      exact gather_total (h2 p hp))
    refine ⟨vs, hvs, ?_⟩
    obtain ⟨-, -, k3⟩ := key vs hvs
    obtain ⟨m1, m2, m3⟩ := foldl_max vs.flatten (0 : K)
    congr 1
    apply le_antisymm
    · rcases m1 with m1 | m1
      · rw [m1]; exact h4
      · exact h5 _ ((k3 _).1 m1)
    · rcases h3 with h3 | h3
      · exact m3 _ ((k3 _).2 h3)
      · rw [h3]; exact m2

theorem largest_one (f : Excitation K → Out K) (i : ℕ) (ps : List (Point K)) (a : K) :
    largest (ofOne f i) ps = .ok a ↔
      ps ≠ [] ∧ (∀ p ∈ ps, ∃ e v, p.windings[i]? = some e ∧ f e = .ok v) ∧ GreatestOrZero (At (fun e v => f e = .ok v) i ps) a := by
  unfold largest
  by_cases hps : ps = []
  · simp [hps]
  rw [if_neg hps, bind_ok]
  have one : ∀ (p : Point K) (l : List K), ofOne f i p = .ok l ↔ ∃ e v, p.windings[i]? = some e ∧ f e = .ok v ∧ l = [v] := by
    intro p l
    unfold ofOne
    by_cases hw : p.windings = []
    · simp [hw]
    · rw [if_neg hw]
      cases he : p.windings[i]? with
      | none => simp
      | some e =>
        simp only [bind_ok, Out.ok.injEq, Option.some.injEq]
        constructor
        · rintro ⟨v, h1, h2⟩; exact ⟨e, v, rfl, h1, h2.symm⟩
        · rintro ⟨e', v, rfl, h1, h2⟩; exact ⟨v, h1, h2.symm⟩
  have key : ∀ vs, gather (ofOne f i) ps = .ok vs → (∀ p ∈ ps, ∃ e v, p.windings[i]? = some e ∧ f e = .ok v) ∧
      ∀ v, v ∈ vs.flatten ↔ At (fun e v => f e = .ok v) i ps v := by
    intro vs hvs
    refine ⟨?_, ?_⟩
    · intro p hp
      obtain ⟨b, hb⟩ := gather_all hvs p hp
      obtain ⟨e, v, h1, h2, -⟩ := (one p b).1 hb
      exact ⟨e, v, h1, h2⟩
    · intro v
      rw [List.mem_flatten]
      constructor
      · rintro ⟨l, hl, hv⟩
        obtain ⟨p, hp, e⟩ := (gather_mem hvs l).1 hl
        obtain ⟨x, w, h1, h2, h3⟩ := (one p l).1 e
        rw [h3, List.mem_singleton] at hv
        subst hv
        exact ⟨p, hp, x, h1, h2⟩
      · rintro ⟨p, hp, x, h1, h2⟩
        exact ⟨[v], (gather_mem hvs _).2 ⟨p, hp, (one p _).2 ⟨x, v, h1, h2, rfl⟩⟩, by simp⟩
  constructor
  · rintro ⟨vs, hvs, h⟩
    simp only [Out.ok.injEq] at h
    subst h
    obtain ⟨k1, k3⟩ := key vs hvs
    obtain ⟨m1, m2, m3⟩ := foldl_max vs.flatten (0 : K)
    exact ⟨hps, k1, ⟨m1.symm.imp_left (k3 _).1, m2, fun v hv => m3 v ((k3 v).2 hv)⟩⟩
  · rintro ⟨-, h1, h3, h4, h5⟩
    obtain ⟨vs, hvs⟩ := gather_total (f := ofOne f i) (l := ps) (by
      intro p hp
      obtain ⟨e, v, g1, g2⟩ := h1 p hp
      exact ⟨[v], (one p _).2 ⟨e, v, g1, g2, rfl⟩⟩)
    refine ⟨vs, hvs, ?_⟩
    obtain ⟨-, k3⟩ := key vs hvs
    obtain ⟨m1, m2, m3⟩ := foldl_max vs.flatten (0 : K)
    congr 1
    apply le_antisymm
    · rcases m1 with m1 | m1
      · rw [m1]; exact h4
      · exact h5 _ ((k3 _).1 m1)
    · rcases h3 with h3 | h3
      · exact m3 _ ((k3 _).2 h3)
      · rw [h3]; exact m2

/-! ## What is answered -/

/-- Every operating point has windings, and each has a value. -/
def Complete (has : Excitation K → K → Prop) (ps : List (Point K)) : Prop :=
  ps ≠ [] ∧ (∀ p ∈ ps, p.windings ≠ []) ∧ ∀ p ∈ ps, ∀ e ∈ p.windings, ∃ v, has e v

/-- Every operating point has that winding, with a value. -/
def CompleteAt (has : Excitation K → K → Prop) (i : ℕ) (ps : List (Point K)) : Prop :=
  ps ≠ [] ∧ ∀ p ∈ ps, ∃ e v, p.windings[i]? = some e ∧ has e v

/-- **C302.** The maxima of voltage over all windings: answered exactly when every winding of every operating point has a value, and then the greatest
of them, or zero. -/
theorem voltage_all (ps : List (Point K)) (a : K) :
    (voltagePeak ps = .ok a ↔ Complete (HasVoltage Processed.peak) ps ∧ GreatestOrZero (Somewhere (HasVoltage Processed.peak) ps) a) ∧
    (voltageRms ps = .ok a ↔ Complete (HasVoltage Processed.rms) ps ∧ GreatestOrZero (Somewhere (HasVoltage Processed.rms) ps) a) := by
  unfold voltagePeak voltageRms
  constructor <;> rw [largest_all] <;> simp only [voltageOf_ok, Complete, and_assoc]

/-- **C302.** The maxima of current over all windings. -/
theorem current_all (ps : List (Point K)) (a : K) :
    (currentPeak ps = .ok a ↔ Complete (HasCurrent Processed.peak) ps ∧ GreatestOrZero (Somewhere (HasCurrent Processed.peak) ps) a) ∧
    (currentRms ps = .ok a ↔ Complete (HasCurrent Processed.rms) ps ∧ GreatestOrZero (Somewhere (HasCurrent Processed.rms) ps) a) ∧
    (currentFrequency ps = .ok a ↔
      Complete (HasCurrent Processed.effective) ps ∧ GreatestOrZero (Somewhere (HasCurrent Processed.effective) ps) a) := by
  unfold currentPeak currentRms currentFrequency
  refine ⟨?_, ?_, ?_⟩ <;> rw [largest_all] <;> simp only [currentOf_ok, Complete, and_assoc]

/-- **C302.** The maxima of voltage of one winding. -/
theorem voltage_one (i : ℕ) (ps : List (Point K)) (a : K) :
    (voltagePeakOf i ps = .ok a ↔ CompleteAt (HasVoltage Processed.peak) i ps ∧ GreatestOrZero (At (HasVoltage Processed.peak) i ps) a) ∧
    (voltageRmsOf i ps = .ok a ↔ CompleteAt (HasVoltage Processed.rms) i ps ∧ GreatestOrZero (At (HasVoltage Processed.rms) i ps) a) := by
  unfold voltagePeakOf voltageRmsOf
  constructor <;> rw [largest_one] <;> simp only [voltageOf_ok, CompleteAt, and_assoc]

/-- **C302.** The maxima of current of one winding. -/
theorem current_one (i : ℕ) (ps : List (Point K)) (a : K) :
    (currentPeakOf i ps = .ok a ↔ CompleteAt (HasCurrent Processed.peak) i ps ∧ GreatestOrZero (At (HasCurrent Processed.peak) i ps) a) ∧
    (currentRmsOf i ps = .ok a ↔ CompleteAt (HasCurrent Processed.rms) i ps ∧ GreatestOrZero (At (HasCurrent Processed.rms) i ps) a) ∧
    (currentFrequencyOf i ps = .ok a ↔
      CompleteAt (HasCurrent Processed.effective) i ps ∧ GreatestOrZero (At (HasCurrent Processed.effective) i ps) a) ∧
    (currentBias i ps = .ok a ↔
      CompleteAt (HasCurrent fun p => some p.offset) i ps ∧ GreatestOrZero (At (HasCurrent fun p => some p.offset) i ps) a) := by
  unfold currentPeakOf currentRmsOf currentFrequencyOf currentBias
  refine ⟨?_, ?_, ?_, ?_⟩ <;> rw [largest_one] <;> simp only [currentOf_ok, CompleteAt, and_assoc]

/-- **C302.** The maximum of frequency needs windings only. -/
theorem frequency_max (ps : List (Point K)) (a : K) :
    frequency ps = .ok a ↔ ps ≠ [] ∧ (∀ p ∈ ps, p.windings ≠ []) ∧ GreatestOrZero (Somewhere (fun e v => e.frequency = v) ps) a := by
  unfold frequency
  rw [largest_all]
  simp

/-- **C302.** The maximum of ambient temperature needs operating points only. -/
theorem temperature_max (ps : List (Point K)) (a : K) :
    temperature ps = .ok a ↔ ps ≠ [] ∧ GreatestOrZero (fun v => ∃ p ∈ ps, p.ambient = v) a := by
  unfold temperature largest
  by_cases hps : ps = []
  · simp [hps]
  rw [if_neg hps, bind_ok]
  have hg : gather (fun p : Point K => Out.ok [p.ambient]) ps = .ok (ps.map fun p => [p.ambient]) := by
    rw [gather_ok]; simp
  have hm : ∀ v, v ∈ (ps.map fun p => [p.ambient]).flatten ↔ ∃ p ∈ ps, p.ambient = v := by
    intro v; simp [eq_comm]
  obtain ⟨m1, m2, m3⟩ := foldl_max (ps.map fun p => [p.ambient]).flatten (0 : K)
  constructor
  · rintro ⟨vs, hvs, h⟩
    rw [hg] at hvs
    simp only [Out.ok.injEq] at hvs h
    subst hvs h
    exact ⟨hps, m1.symm.imp_left (hm _).1, m2, fun v hv => m3 v ((hm v).2 hv)⟩
  · rintro ⟨-, h3, h4, h5⟩
    refine ⟨_, hg, ?_⟩
    congr 1
    apply le_antisymm
    · rcases m1 with m1 | m1
      · rw [m1]; exact h4
      · exact h5 _ ((hm _).1 m1)
    · rcases h3 with h3 | h3
      · exact m3 _ ((hm _).2 h3)
      · rw [h3]; exact m2

/-! ## What follows -/

theorem GreatestOrZero.unique {vs : K → Prop} {a b : K} (ha : GreatestOrZero vs a) (hb : GreatestOrZero vs b) : a = b := by
  obtain ⟨a1, a2, a3⟩ := ha
  obtain ⟨b1, b2, b3⟩ := hb
  apply le_antisymm
  · rcases a1 with h | h
    · exact b3 _ h
    · rw [h]; exact b2
  · rcases b1 with h | h
    · exact a3 _ h
    · rw [h]; exact a2

/-- **C303.** If one value is not negative, what is answered is the greatest of the values. -/
theorem greatest_of_nonneg {vs : K → Prop} {a : K} (ha : GreatestOrZero vs a) (v : K) (hv : vs v) (h0 : 0 ≤ v) : vs a ∧ ∀ w, vs w → w ≤ a := by
  obtain ⟨h1, h2, h3⟩ := ha
  refine ⟨?_, h3⟩
  rcases h1 with h | h
  · exact h
  · have : v = a := le_antisymm (h3 v hv) (by rw [h]; exact h0)
    rw [← this]; exact hv

/-- **C303.** If all values are negative, zero is answered, which is none of them. -/
theorem zero_of_neg {vs : K → Prop} {a : K} (ha : GreatestOrZero vs a) (hn : ∀ v, vs v → v < 0) : a = 0 ∧ ¬vs a := by
  obtain ⟨h1, h2, h3⟩ := ha
  have : ¬vs a := fun h => absurd (hn a h) (not_lt.2 h2)
  exact ⟨h1.resolve_left this, this⟩

/-- **C303.** Operating points whose ambient temperatures are all below zero have a maximum of zero. -/
theorem cold_is_zero (ps : List (Point K)) (hne : ps ≠ []) (hn : ∀ p ∈ ps, p.ambient < 0) : temperature ps = .ok 0 := by
  rw [temperature_max]
  refine ⟨hne, Or.inr rfl, le_rfl, ?_⟩
  rintro v ⟨p, hp, rfl⟩
  exact (hn p hp).le

/-- **C303.** Direct currents that all flow backwards have a maximum of zero. -/
theorem backwards_is_zero (i : ℕ) (ps : List (Point K)) (hne : ps ≠ [])
    (h : ∀ p ∈ ps, ∃ e s q, p.windings[i]? = some e ∧ e.current = some s ∧ s.processed = some q ∧ q.offset < 0) : currentBias i ps = .ok 0 := by
  rw [(current_one i ps 0).2.2.2]
  refine ⟨⟨hne, ?_⟩, Or.inr rfl, le_rfl, ?_⟩
  · intro p hp
    obtain ⟨e, s, q, h1, h2, h3, -⟩ := h p hp
    exact ⟨e, q.offset, h1, s, h2, by rw [h3]; rfl⟩
  · rintro v ⟨p, hp, e, he, s, hs, hv⟩
    obtain ⟨e', s', q, h1, h2, h3, h4⟩ := h p hp
    rw [he] at h1
    simp only [Option.some.injEq] at h1
    subst h1
    rw [hs] at h2
    simp only [Option.some.injEq] at h2
    subst h2
    rw [h3] at hv
    simp only [Option.bind_some, Option.some.injEq] at hv
    rw [← hv]; exact h4.le

/-- **C302.** The order of the operating points makes no difference. -/
theorem order_irrelevant {ps qs : List (Point K)} (h : ps.Perm qs) (a : K) :
    (currentRms ps = .ok a ↔ currentRms qs = .ok a) ∧ (voltageRms ps = .ok a ↔ voltageRms qs = .ok a) ∧
    (temperature ps = .ok a ↔ temperature qs = .ok a) ∧ (∀ i, currentBias i ps = .ok a ↔ currentBias i qs = .ok a) := by
  have hn : ps ≠ [] ↔ qs ≠ [] := not_congr ⟨fun e => by subst e; exact List.nil_perm.1 h, fun e => by subst e; exact List.perm_nil.1 h⟩
  refine ⟨?_, ?_, ?_, ?_⟩
  · rw [(current_all ps a).2.1, (current_all qs a).2.1]
    simp only [Complete, GreatestOrZero, Somewhere, h.mem_iff, hn]
  · rw [(voltage_all ps a).2, (voltage_all qs a).2]
    simp only [Complete, GreatestOrZero, Somewhere, h.mem_iff, hn]
  · rw [temperature_max, temperature_max]
    simp only [GreatestOrZero, h.mem_iff, hn]
  · intro i
    rw [(current_one i ps a).2.2.2, (current_one i qs a).2.2.2]
    simp only [CompleteAt, GreatestOrZero, At, h.mem_iff, hn]

/-- **C302.** The maximum over all windings is the largest of the maxima of the windings, when all operating points have the same windings. -/
theorem all_is_largest_one (n : ℕ) (hn : 0 < n) (ps : List (Point K)) (hw : ∀ p ∈ ps, p.windings.length = n) (a : K) (h : currentRms ps = .ok a) :
    (∀ i < n, ∃ b, currentRmsOf i ps = .ok b ∧ b ≤ a) ∧ ∃ i < n, currentRmsOf i ps = .ok a := by
  rw [(current_all ps a).2.1] at h
  obtain ⟨⟨h1, h2, h3⟩, g1, g2, g3⟩ := h
  have each : ∀ i < n, ∃ b, currentRmsOf i ps = .ok b ∧ b ≤ a ∧ GreatestOrZero (At (HasCurrent Processed.rms) i ps) b := by
    intro i hi
    have hc : CompleteAt (HasCurrent Processed.rms) i ps := by
      refine ⟨h1, fun p hp => ?_⟩
      have hlt : i < p.windings.length := by rw [hw p hp]; exact hi
      obtain ⟨v, hv⟩ := h3 p hp _ (List.getElem_mem hlt)
      exact ⟨_, v, List.getElem?_eq_getElem hlt, hv⟩
    obtain ⟨vs, hvs⟩ := gather_total (f := ofOne (currentOf Processed.rms) i) (l := ps) (by
      intro p hp
      obtain ⟨e, v, e1, e2⟩ := hc.2 p hp
      refine ⟨[v], ?_⟩
      unfold ofOne
      rw [if_neg (h2 p hp), e1]
      simp only
      rw [(currentOf_ok _ _ _).2 e2]
      rfl)
    have hl : currentRmsOf i ps = .ok (vs.flatten.foldl max 0) := by
      unfold currentRmsOf largest
      rw [if_neg h1, hvs]
      rfl
    obtain ⟨hc', hg⟩ := ((current_one i ps _).2.1).1 hl
    refine ⟨_, hl, ?_, hg⟩
    rcases hg.1 with e | e
    · obtain ⟨p, hp, x, hx, hv⟩ := e
      exact g3 _ ⟨p, hp, x, List.mem_of_getElem? hx, hv⟩
    · rw [e]; exact g2
  refine ⟨fun i hi => ?_, ?_⟩
  · obtain ⟨b, e1, e2, -⟩ := each i hi
    exact ⟨b, e1, e2⟩
  · rcases g1 with ⟨p, hp, x, hx, hv⟩ | e
    · obtain ⟨i, hi, hxi⟩ := List.getElem_of_mem hx
      have hin : i < n := by rw [← hw p hp]; exact hi
      obtain ⟨b, e1, e2, e3⟩ := each i hin
      refine ⟨i, hin, ?_⟩
      have : a ≤ b := e3.2.2 a ⟨p, hp, x, by rw [List.getElem?_eq_getElem hi, hxi], hv⟩
      rw [e1, le_antisymm e2 this]
    · obtain ⟨b, e1, e2, e3⟩ := each 0 hn
      refine ⟨0, hn, ?_⟩
      rw [e1]
      congr 1
      exact le_antisymm e2 (by rw [e]; exact e3.2.1)

/-- **C302.** Asking for a winding that is not there is undefined behaviour, if the operating points before have it. -/
theorem no_winding (i : ℕ) (p : Point K) (ps : List (Point K)) (hw : p.windings ≠ []) (hi : p.windings.length ≤ i) :
    currentRmsOf i (p :: ps) = .undefined := by
  unfold currentRmsOf largest
  rw [if_neg (by simp)]
  simp only [gather]
  have : ofOne (currentOf Processed.rms) i p = .undefined := by
    unfold ofOne
    rw [if_neg hw, List.getElem?_eq_none hi]
  rw [this]
  rfl

/-! ## Cases -/

/-- A winding with a processed current and a voltage with a waveform only. -/
def winding (rms offset vrms : ℚ) : Excitation ℚ :=
  ⟨100000, some ⟨none, some ⟨some (2 * vrms), some vrms, none, 0⟩⟩, some ⟨some ⟨some (2 * rms), some rms, some 120000, offset⟩, none⟩⟩

/-- Two operating points, with two windings. -/
def points : List (Point ℚ) := [⟨[winding 3 1 10, winding 5 (-1) 4], 25⟩, ⟨[winding 4 2 8, winding 1 (-2) 12], 85⟩]

example : currentRms points = .ok 5 ∧ currentRmsOf 0 points = .ok 4 ∧ voltageRms points = .ok 12 ∧ voltagePeakOf 0 points = .ok 20 ∧
    temperature points = .ok 85 ∧ frequency points = .ok 100000 ∧ currentFrequency points = .ok 120000 ∧ currentBias 0 points = .ok 2 := by
  decide +kernel

/-- Case of `all_is_largest_one`. -/
example : ∀ p ∈ points, p.windings.length = 2 := by decide +kernel

/-- **C303.** At −40 and −20 degrees, the maximum of ambient temperature is 0; the direct current of a winding with −1 A and −2 A is 0 A. -/
theorem below_zero : temperature [⟨[winding 3 1 10], -40⟩, ⟨[winding 3 1 10], (-20 : ℚ)⟩] = .ok 0 ∧ currentBias 1 points = .ok 0 := by decide +kernel

end Verif.Maxima
