import Verif.Reader.WindowProps
import Verif.Reader.WindingProps

/-!
# The operating point

Properties C283, C284 and C286.
-/

set_option linter.unusedSimpArgs false
set_option linter.unusedVariables false
set_option linter.unusedSectionVars false

namespace Verif.Reader

section
variable {K : Type} [Field K] [LinearOrder K] [IsStrictOrderedRing K]

/-! ## Windows stay -/

theorem extractRaw_keeps {windows ws : Windows} {signal time : Column K} {frequency : K} {r : Res (Wave K)}
    (h : extractRaw windows signal time frequency = (ws, r)) {a : Text} {win : Nat × Nat} (hw : windows.lookup a = some win) :
    ws.lookup a = some win := by
  unfold extractRaw at h
  split_ifs at h with hl
  · simp at h; rw [← h.1]; exact hw
  · simp only at h
    unfold onePeriod at h
    split_ifs at h with hl'
    · simp at h; rw [← h.1]; exact hw
    · split at h
      · simp at h; rw [← h.1]; exact hw
      · split at h
        · simp at h; rw [← h.1]; exact hw
        · rename_i hnone
          split at h
          · simp only [Prod.mk.injEq] at h
            rw [← h.1, List.lookup_cons]
            have : a ≠ time.name := fun e => by rw [e, hnone] at hw; simp at hw
            rw [beq_eq_false_iff_ne.2 this]; exact hw
          · simp at h; rw [← h.1]; exact hw
          · simp at h; rw [← h.1]; exact hw

theorem extract_inv {sampled : Wave K → K → Option (Wave K)} {windows ws : Windows} {signal time : Column K} {frequency : K} {x : Wave K}
    (h : extract sampled windows signal time frequency = (ws, .ok x)) :
    ∃ w, extractRaw windows signal time frequency = (ws, .ok w) ∧ sampled w frequency = some x := by
  unfold extract at h
  rcases hr : extractRaw windows signal time frequency with ⟨ws', _ | _ | _⟩
  · rename_i w
    rw [hr] at h
    simp only at h
    cases hs : sampled w frequency with
    | none => rw [hs] at h; simp at h
    | some s => rw [hs] at h; simp at h; exact ⟨w, by rw [h.1], by rw [hs, h.2]⟩
  · rw [hr] at h; simp at h
  · rw [hr] at h; simp at h

theorem extract_keeps {sampled : Wave K → K → Option (Wave K)} {windows ws : Windows} {signal time : Column K} {frequency : K}
    {r : Res (Wave K)} (h : extract sampled windows signal time frequency = (ws, r)) {a : Text} {win : Nat × Nat}
    (hw : windows.lookup a = some win) : ws.lookup a = some win := by
  unfold extract at h
  rcases hr : extractRaw windows signal time frequency with ⟨ws', _ | _ | _⟩
  · rename_i w
    rw [hr] at h
    simp only at h
    have := extractRaw_keeps hr hw
    cases hs : sampled w frequency with
    | none => rw [hs] at h; simp at h; rw [← h.1]; exact this
    | some s => rw [hs] at h; simp at h; rw [← h.1]; exact this
  · rw [hr] at h; simp at h; rw [← h.1]; exact extractRaw_keeps hr hw
  · rw [hr] at h; simp at h; rw [← h.1]; exact extractRaw_keeps hr hw

/-! ## The waveforms of a winding -/

/-- The waveform of a kind in an excitation. -/
def Excitation.of (e : Excitation K) : DataType → Option (Wave K)
  | .current => e.current
  | .magnetizing => e.magnetizing
  | .voltage => e.voltage
  | _ => none

/-- The period of a signal in the window kept for its time, sampled. -/
def IsPeriod (sampled : Wave K → K → Option (Wave K)) (ws : Windows) (frequency : K) (signal time : Column K) (x : Wave K) : Prop :=
  signal.data.length = time.data.length ∧ time.data ≠ [] ∧
    ∃ win w, ws.lookup time.name = some win ∧ cut (wave signal time) win = .ok w ∧ sampled w frequency = some x

theorem IsPeriod.keeps {sampled : Wave K → K → Option (Wave K)} {ws ws' : Windows} {frequency : K} {signal time : Column K} {x : Wave K}
    (h : IsPeriod sampled ws frequency signal time x) (hk : ∀ a win, ws.lookup a = some win → ws'.lookup a = some win) :
    IsPeriod sampled ws' frequency signal time x := by
  obtain ⟨h1, h2, win, w, h3, h4⟩ := h
  exact ⟨h1, h2, win, w, hk _ _ h3, h4⟩

/-- A column is of a winding and of a kind. -/
def isOf (w : Nat) (k : DataType) (c : Column K) : Bool := c.winding == some w && c.kind == some k

/-- The kinds of waveforms. -/
def Waved (k : DataType) : Prop := k = .current ∨ k = .magnetizing ∨ k = .voltage

theorem gives_none {w : Nat} {c : Column K} (h : gives w c = none) (k : DataType) (hk : Waved k) : isOf w k c = false := by
  unfold gives at h
  unfold isOf
  split_ifs at h with hw
  · rcases hk with rfl | rfl | rfl <;> (cases hc : c.kind with
      | none => simp
      | some d => rw [hc] at h; cases d <;> simp_all)
  · simp [hw]

theorem gives_some {w : Nat} {c : Column K} {k : DataType} (h : gives w c = some k) :
    Waved k ∧ isOf w k c = true ∧ ∀ k', k' ≠ k → isOf w k' c = false := by
  unfold gives at h
  unfold isOf Waved
  split_ifs at h with hw
  · cases hc : c.kind with
    | none => rw [hc] at h; simp at h
    | some d =>
      rw [hc] at h
      cases d <;> simp at h <;> subst h <;> refine ⟨by simp, by simp [hw], fun k' hk' => ?_⟩ <;> simp [hw, Ne.symm hk']

theorem set_of_self {e : Excitation K} {k : DataType} (hk : Waved k) (x : Wave K) : (e.set k x).of k = some x := by
  rcases hk with rfl | rfl | rfl <;> rfl

theorem set_of_other {e : Excitation K} {k k' : DataType} (h : k' ≠ k) (x : Wave K) : (e.set k x).of k' = e.of k' := by
  cases k <;> cases k' <;> first | rfl | exact absurd rfl h

theorem excite_spec {sampled : Wave K → K → Option (Wave K)} {time : Column K} {frequency : K} {w : Nat} {cols : List (Column K)}
    {ws ws' : Windows} {e e' : Excitation K} (h : excite sampled time frequency w ws e cols = (ws', .ok e')) :
    (∀ a win, ws.lookup a = some win → ws'.lookup a = some win) ∧ e'.frequency = (if cols = [] then e.frequency else some frequency) ∧
      ∀ k, Waved k → (match cols.reverse.find? (isOf w k) with
        | none => e'.of k = e.of k
        | some c => ∃ x, e'.of k = some x ∧ IsPeriod sampled ws' frequency c time x) := by
  induction cols generalizing ws e with
  | nil => simp [excite] at h; obtain ⟨rfl, rfl⟩ := h; simp
  | cons c r ih =>
    rw [excite] at h
    cases hg : gives w c with
    | none =>
      rw [hg] at h
      simp only at h
      obtain ⟨h1, h2, h3⟩ := ih h
      refine ⟨h1, ?_, fun k hk => ?_⟩
      · rw [h2]; simp
      · have := h3 k hk
        rw [List.reverse_cons, List.find?_append]
        cases hf : r.reverse.find? (isOf w k) with
        | some c' => rw [hf] at this; simpa using this
        | none =>
          rw [hf] at this
          simp only [Option.none_or, List.find?_cons, gives_none hg k hk, List.find?_nil]
          rw [this]; cases k <;> rfl
    | some k0 =>
      rw [hg] at h
      simp only at h
      obtain ⟨hw0, his, hother⟩ := gives_some hg
      rcases hx : extract sampled ws c time frequency with ⟨ws1, _ | _ | _⟩
      · rename_i x
        rw [hx] at h
        simp only at h
        obtain ⟨h1, h2, h3⟩ := ih h
        refine ⟨fun a win ha => h1 a win (extract_keeps hx ha), ?_, fun k hk => ?_⟩
        · rw [h2]
          cases hw0 with
          | inl h => subst h; simp [Excitation.set]
          | inr h => rcases h with h | h <;> subst h <;> simp [Excitation.set]
        · have := h3 k hk
          rw [List.reverse_cons, List.find?_append]
          cases hf : r.reverse.find? (isOf w k) with
          | some c' => rw [hf] at this; simpa using this
          | none =>
            rw [hf] at this
            by_cases hkk : k = k0
            · subst hkk
              simp only [Option.none_or, List.find?_cons, his, List.find?_nil]
              obtain ⟨wv, hraw, hsamp⟩ := extract_inv hx
              obtain ⟨hl, hne, win, hlook, hcut, _⟩ := extractRaw_inv hraw
              exact ⟨x, by rw [this, set_of_self hk], hl, hne, win, wv, h1 _ _ hlook, hcut, hsamp⟩
            · simp only [Option.none_or, List.find?_cons, hother k hkk, List.find?_nil]
              rw [this, set_of_other hkk]; cases k <;> rfl
      · rw [hx] at h; simp at h
      · rw [hx] at h; simp at h

/-- What an excitation must be, given the columns, the time and the windows: of each kind, the period of the last column, if any. -/
def Excites (sampled : Wave K → K → Option (Wave K)) (cols : List (Column K)) (ws : Windows) (time : Column K) (frequency : K) (i : Nat)
    (e : Excitation K) : Prop :=
  e.frequency = (if cols = [] then none else some frequency) ∧ ∀ k, Waved k → (match cols.reverse.find? (isOf i k) with
    | none => e.of k = none
    | some c => ∃ x, e.of k = some x ∧ IsPeriod sampled ws frequency c time x)

theorem Excites.keeps {sampled : Wave K → K → Option (Wave K)} {cols : List (Column K)} {ws ws' : Windows} {time : Column K} {frequency : K}
    {i : Nat} {e : Excitation K} (h : Excites sampled cols ws time frequency i e)
    (hk : ∀ a win, ws.lookup a = some win → ws'.lookup a = some win) : Excites sampled cols ws' time frequency i e := by
  refine ⟨h.1, fun k hw => ?_⟩
  have := h.2 k hw
  cases hf : cols.reverse.find? (isOf i k) with
  | none => rw [hf] at this; exact this
  | some c => rw [hf] at this; obtain ⟨x, h1, h2⟩ := this; exact ⟨x, h1, h2.keeps hk⟩

theorem exciteAll_spec {sampled : Wave K → K → Option (Wave K)} {timeOf : Nat → Column K} {frequency : K} {cols : List (Column K)}
    {ids : List Nat} {ws ws' : Windows} {xs : List (Excitation K)}
    (h : exciteAll sampled timeOf frequency cols ws ids = (ws', .ok xs)) :
    (∀ a win, ws.lookup a = some win → ws'.lookup a = some win) ∧
      List.Forall₂ (fun i e => Excites sampled cols ws' (timeOf i) frequency i e) ids xs := by
  induction ids generalizing ws xs with
  | nil => simp [exciteAll] at h; obtain ⟨rfl, rfl⟩ := h; simp
  | cons i r ih =>
    rw [exciteAll] at h
    rcases hx : excite sampled (timeOf i) frequency i ws {} cols with ⟨ws1, _ | _ | _⟩
    · rename_i x
      rw [hx] at h
      simp only at h
      rcases hr : exciteAll sampled timeOf frequency cols ws1 r with ⟨ws2, _ | _ | _⟩
      · rename_i ys
        rw [hr] at h
        simp only [Prod.mk.injEq, Res.ok.injEq] at h
        obtain ⟨rfl, rfl⟩ := h
        obtain ⟨k1, k2⟩ := ih hr
        obtain ⟨e1, e2, e3⟩ := excite_spec hx
        refine ⟨fun a win ha => k1 a win (e1 a win ha), .cons ?_ k2⟩
        refine Excites.keeps ⟨e2, fun k hk => ?_⟩ k1
        have := e3 k hk
        cases hf : cols.reverse.find? (isOf i k) with
        | none => rw [hf] at this; rw [this]; cases k <;> rfl
        | some c => rw [hf] at this; exact this
      · rw [hr] at h; simp at h
      · rw [hr] at h; simp at h
    · rw [hx] at h; simp at h
    · rw [hx] at h; simp at h

/-! ## The excitations kept -/

theorem dropEmpty_spec (xs : List (Excitation K)) :
    dropEmpty xs <+: xs ∧ (∀ i e, (dropEmpty xs).length ≤ i → xs[i]? = some e → e.isEmpty = true) ∧
      (xs ≠ [] → dropEmpty xs ≠ []) ∧ (1 < (dropEmpty xs).length → ∀ e, (dropEmpty xs).getLast? = some e → e.isEmpty = false) := by
  rcases xs with _ | ⟨x, xs⟩
  · simp [dropEmpty]
  · have hsplit : xs = (xs.reverse.dropWhile Excitation.isEmpty).reverse ++ (xs.reverse.takeWhile Excitation.isEmpty).reverse := by
      rw [← List.reverse_append, List.takeWhile_append_dropWhile, List.reverse_reverse]
    have hd : dropEmpty (x :: xs) = x :: (xs.reverse.dropWhile Excitation.isEmpty).reverse := rfl
    generalize ha : (xs.reverse.dropWhile Excitation.isEmpty) = kept at *
    generalize hb : (xs.reverse.takeWhile Excitation.isEmpty) = gone at *
    refine ⟨?_, ?_, by simp [dropEmpty], ?_⟩
    · rw [hd, hsplit]; exact ⟨gone.reverse, by simp⟩
    · intro i e hi he
      rw [hd] at hi
      have he' : (x :: kept.reverse ++ gone.reverse)[i]? = some e := by rw [List.cons_append, ← hsplit]; exact he
      rw [List.getElem?_append_right hi] at he'
      have : e ∈ gone := by have := List.mem_of_getElem? he'; simpa using this
      rw [← hb] at this
      exact List.all_eq_true.1 List.all_takeWhile e this
    · intro hlen e he
      rw [hd] at hlen he
      rcases kept with _ | ⟨y, ys⟩
      · simp at hlen
      · have : e = y := by
          rw [List.reverse_cons] at he
          simpa [List.getLast?_cons, List.getLast?_append] using he.symm
        subst this
        have := List.head?_dropWhile_not Excitation.isEmpty xs.reverse
        rw [ha] at this
        simpa using this

/-- The time a reader pairs the signals of a winding with. -/
def pairedTime (r : Reader K) (names : Option (List Names)) (i : Nat) : Column K := if names = none then r.time else timeForWinding r i

/-- **C283.** An operating point has, of each winding and kind, the period of the last column that the reader holds for them, and nothing when it
holds none; all on the windows that the reader keeps, one for each time. -/
theorem point_waveforms {sampled : Wave K → K → Option (Wave K)} {r r' : Reader K} {n : Nat} {frequency : K} {names : Option (List Names)}
    {es : List (Excitation K)} (h : operatingPoint sampled r n frequency names = (r', .ok es)) :
    (∀ i e, es[i]? = some e → Excites sampled r'.columns r'.windows (pairedTime r' names i) frequency i e) ∧
      es.length ≤ n ∧ (0 < n → es ≠ []) ∧
      (∀ i, i < n → es.length ≤ i → ∀ c ∈ r'.columns, ∀ k, Waved k → isOf i k c = false) ∧
      (1 < es.length → ∃ c ∈ r'.columns, ∃ k, Waved k ∧ isOf (es.length - 1) k c = true) := by
  have core : ∀ (rr : Reader K) (timeOf : Nat → Column K) (ws : Windows) (xs : List (Excitation K)),
      exciteAll sampled timeOf frequency rr.columns rr.windows (List.range n) = (ws, .ok xs) → es = dropEmpty xs →
      (∀ i e, es[i]? = some e → Excites sampled rr.columns ws (timeOf i) frequency i e) ∧
      es.length ≤ n ∧ (0 < n → es ≠ []) ∧ (∀ i, i < n → es.length ≤ i → ∀ c ∈ rr.columns, ∀ k, Waved k → isOf i k c = false) ∧
      (1 < es.length → ∃ c ∈ rr.columns, ∃ k, Waved k ∧ isOf (es.length - 1) k c = true) := by
    intro rr timeOf ws xs hx he
    obtain ⟨_, hall⟩ := exciteAll_spec hx
    have hlen : xs.length = n := by have := hall.length_eq; simpa using this.symm
    obtain ⟨hpre, hgone, hne, hlast⟩ := dropEmpty_spec xs
    rw [← he] at hpre hgone hne hlast
    have hxi : ∀ (i : Nat) (e : Excitation K), xs[i]? = some e → Excites sampled rr.columns ws (timeOf i) frequency i e := by
      intro i e hi
      obtain ⟨hi', hi⟩ := List.getElem?_eq_some_iff.1 hi
      have := hall.get (i := i) (by simpa [hlen] using hi') hi'
      simp only [List.get_eq_getElem, List.getElem_range] at this
      rw [hi] at this; exact this
    have hes : ∀ (i : Nat) (e : Excitation K), es[i]? = some e → xs[i]? = some e := by
      intro i e hi
      obtain ⟨t, ht⟩ := hpre
      obtain ⟨hi', hi⟩ := List.getElem?_eq_some_iff.1 hi
      rw [← ht, List.getElem?_append_left hi', List.getElem?_eq_getElem hi', hi]
    refine ⟨fun i e hi => hxi i e (hes i e hi), by rw [← hlen]; exact hpre.length_le, fun h0 => hne (by
      intro h; rw [h] at hlen; simp at hlen; omega), ?_, ?_⟩
    · intro i hi hle c hc k hk
      obtain ⟨e, hei⟩ : ∃ e, xs[i]? = some e := ⟨_, List.getElem?_eq_getElem (by omega)⟩
      have hemp := hgone i e hle hei
      have := (hxi i e hei).2 k hk
      cases hf : rr.columns.reverse.find? (isOf i k) with
      | none =>
        have := List.find?_eq_none.1 hf c (by simpa using hc)
        simpa using this
      | some c' =>
        rw [hf] at this
        obtain ⟨x, hx, _⟩ := this
        exfalso
        simp only [Excitation.isEmpty, Bool.and_eq_true, Option.isNone_iff_eq_none] at hemp
        rcases hk with rfl | rfl | rfl <;> simp [Excitation.of, hemp] at hx
    · intro h1
      obtain ⟨e, hel⟩ : ∃ e, es.getLast? = some e :=
        ⟨_, List.getLast?_eq_getLast_of_ne_nil (by intro h; rw [h] at h1; simp at h1)⟩
      have hfull := hlast h1 e hel
      have hei : es[es.length - 1]? = some e := by rw [← List.getLast?_eq_getElem?]; exact hel
      have hex := (hxi _ _ (hes _ _ hei)).2
      have : ∃ k, Waved k ∧ e.of k ≠ none := by
        by_contra hno
        push Not at hno
        have a := hno .current (.inl rfl)
        have b := hno .magnetizing (.inr (.inl rfl))
        have c := hno .voltage (.inr (.inr rfl))
        simp only [Excitation.of] at a b c
        simp [Excitation.isEmpty, a, b, c] at hfull
      obtain ⟨k, hk, hne'⟩ := this
      have := hex k hk
      cases hf : rr.columns.reverse.find? (isOf (es.length - 1) k) with
      | none => rw [hf] at this; exact absurd this hne'
      | some c => exact ⟨c, by simpa using List.mem_of_find?_eq_some hf, k, hk, List.find?_some hf⟩
  unfold operatingPoint at h
  cases names with
  | some ns =>
    simp only at h
    rcases hx : exciteAll sampled (timeForWinding { r with columns := assign r.columns 0 ns }) frequency (assign r.columns 0 ns) r.windows
      (List.range n) with ⟨ws, _ | _ | _⟩
    · rename_i xs
      rw [hx] at h
      simp only [Prod.mk.injEq, Res.ok.injEq] at h
      obtain ⟨rfl, rfl⟩ := h
      have := core { r with columns := assign r.columns 0 ns } _ ws xs hx rfl
      simpa [pairedTime, timeForWinding] using this
    · rw [hx] at h; simp at h
    · rw [hx] at h; simp at h
  | none =>
    simp only at h
    rcases hrec : recognise r frequency with ⟨r1, _ | _ | _⟩
    · rw [hrec] at h
      simp only at h
      rcases hx : exciteAll sampled (fun _ => r1.time) frequency r1.columns r1.windows (List.range n) with ⟨ws, _ | _ | _⟩
      · rename_i xs
        rw [hx] at h
        simp only [Prod.mk.injEq, Res.ok.injEq] at h
        obtain ⟨rfl, rfl⟩ := h
        have := core r1 _ ws xs hx rfl
        simpa [pairedTime] using this
      · rw [hx] at h; simp at h
      · rw [hx] at h; simp at h
    · rw [hrec] at h; simp at h
    · rw [hrec] at h; simp at h

/-! ## Columns by name -/

/-- The name for a kind. -/
def Names.of (n : Names) : DataType → Option Text
  | .current => n.current
  | .magnetizing => n.magnetizing
  | .time => n.time
  | .voltage => n.voltage
  | .unknown => none

theorem mem_assigned {cols : List (Column K)} {w : Nat} {k : DataType} {o : Option Text} {a : Column K} :
    a ∈ assigned cols w k o ↔ ∃ c ∈ cols, o = some c.name ∧ a = { c with kind := some k, winding := some w } := by
  cases o with
  | none => simp [assigned]
  | some n =>
    simp only [assigned, List.mem_map, List.mem_filter, beq_iff_eq, Option.some.injEq]
    constructor
    · rintro ⟨c, ⟨h1, h2⟩, h3⟩; exact ⟨c, h1, h2.symm, h3.symm⟩
    · rintro ⟨c, h1, h2, h3⟩; exact ⟨c, ⟨h1, h2.symm⟩, h3.symm⟩

theorem mem_assign {cols : List (Column K)} {names : List Names} {w : Nat} {a : Column K} :
    a ∈ assign cols w names ↔ ∃ i n k, ∃ c ∈ cols, names[i]? = some n ∧ n.of k = some c.name ∧
      a = { c with kind := some k, winding := some (w + i) } := by
  induction names generalizing w with
  | nil => simp [assign]
  | cons n r ih =>
    rw [assign]
    simp only [List.mem_append, mem_assigned, ih]
    constructor
    · rintro ((((h | h) | h) | h) | ⟨i, m, k, c, hc, h1, h2, rfl⟩)
      · obtain ⟨c, hc, h1, rfl⟩ := h; exact ⟨0, n, .current, c, hc, rfl, h1, rfl⟩
      · obtain ⟨c, hc, h1, rfl⟩ := h; exact ⟨0, n, .magnetizing, c, hc, rfl, h1, rfl⟩
      · obtain ⟨c, hc, h1, rfl⟩ := h; exact ⟨0, n, .time, c, hc, rfl, h1, rfl⟩
      · obtain ⟨c, hc, h1, rfl⟩ := h; exact ⟨0, n, .voltage, c, hc, rfl, h1, rfl⟩
      · exact ⟨i + 1, m, k, c, hc, h1, h2, by rw [show w + 1 + i = w + (i + 1) by omega]⟩
    · rintro ⟨i, m, k, c, hc, h1, h2, rfl⟩
      rcases i with _ | i
      · simp at h1; subst h1
        left
        cases k with
        | current => exact .inl (.inl (.inl ⟨c, hc, h2, rfl⟩))
        | magnetizing => exact .inl (.inl (.inr ⟨c, hc, h2, rfl⟩))
        | time => exact .inl (.inr ⟨c, hc, h2, rfl⟩)
        | voltage => exact .inr ⟨c, hc, h2, rfl⟩
        | unknown => simp [Names.of] at h2
      · right
        exact ⟨i, m, k, c, hc, by simpa using h1, h2, by rw [show w + 1 + i = w + (i + 1) by omega]⟩

/-- **C283.** With names, the columns the reader goes on with are those that have one of them, each as the kind and of the winding it is named for:
a name that no column has is passed over, and the columns not named are gone. -/
theorem named_columns {sampled : Wave K → K → Option (Wave K)} {r r' : Reader K} {n : Nat} {frequency : K} {names : List Names}
    {x : Res (List (Excitation K))} (h : operatingPoint sampled r n frequency (some names) = (r', x)) (a : Column K) :
    a ∈ r'.columns ↔ ∃ i ns k, ∃ c ∈ r.columns, names[i]? = some ns ∧ ns.of k = some c.name ∧
      a = { c with kind := some k, winding := some i } := by
  have : r'.columns = assign r.columns 0 names := by
    unfold operatingPoint at h
    simp only at h
    split at h <;> simp only [Prod.mk.injEq] at h <;> rw [← h.1]
  rw [this, mem_assign]
  simp

/-! ## Undefined behaviour -/

theorem cut_not_ub {w : Wave K} (h : w.data.length = w.time.length) (win : Nat × Nat) : cut w win ≠ .ub := by
  unfold cut
  split_ifs with hb
  · simp
  · simp only
    rcases hp : (w.time.drop win.1).take (win.2 - win.1) with _ | ⟨t, ts⟩
    · exfalso
      have := congrArg List.length hp
      simp at this
      omega
    · simp

theorem findWindow_not_ub (frequency : K) (time data : List K) (last : K) : findWindow frequency time data last ≠ .ub := by
  unfold findWindow endWindow
  split_ifs
  · simp
  · simp only
    split <;> (split <;> simp)

/-- **C284.** Extracting a waveform is undefined exactly when the signal and its time are both without samples. -/
theorem extract_undefined {windows : Windows} {signal time : Column K} {frequency : K} :
    (extractRaw windows signal time frequency).2 = .ub ↔ signal.data = [] ∧ time.data = [] := by
  constructor
  · intro h
    unfold extractRaw at h
    split_ifs at h with hl
    by_contra hne
    have ht : time.data ≠ [] := by
      intro h0; apply hne; refine ⟨?_, h0⟩
      have : signal.data.length = 0 := by rw [h0] at hl; simpa using hl
      exact List.length_eq_zero_iff.1 this
    have hs := samples_ne_nil (signal := signal) (by omega) ht
    simp only at h
    unfold onePeriod at h
    rw [if_neg (by simp)] at h
    obtain ⟨last, hlast⟩ : ∃ last, ((samples signal time).map (·.1)).getLast? = some last :=
      ⟨_, List.getLast?_eq_getLast_of_ne_nil (by simpa using hs)⟩
    have e : (collapse (time.data.zip signal.data)) = samples signal time := rfl
    simp only [e, hlast] at h
    split at h
    · exact cut_not_ub (by simp) _ h
    · split at h
      · exact cut_not_ub (by simp) _ h
      · simp at h
      · rename_i hf; exact findWindow_not_ub _ _ _ _ hf
  · rintro ⟨h1, h2⟩
    unfold extractRaw
    rw [h1, h2]
    simp [collapse, onePeriod]

theorem extract_not_ub {sampled : Wave K → K → Option (Wave K)} {windows : Windows} {signal time : Column K} {frequency : K}
    (h : signal.data ≠ [] ∨ time.data ≠ []) : (extract sampled windows signal time frequency).2 ≠ .ub := by
  have hraw : (extractRaw windows signal time frequency).2 ≠ .ub := fun hc => by
    have := extract_undefined.1 hc; tauto
  unfold extract
  rcases hr : extractRaw windows signal time frequency with ⟨ws, _ | _ | _⟩
  · simp only
    split <;> simp
  · simp
  · rw [hr] at hraw; simp at hraw

theorem excite_not_ub {sampled : Wave K → K → Option (Wave K)} {time : Column K} {frequency : K} {w : Nat} {cols : List (Column K)}
    (h : ∀ c ∈ cols, gives w c ≠ none → c.data ≠ [] ∨ time.data ≠ []) (ws : Windows) (e : Excitation K) :
    (excite sampled time frequency w ws e cols).2 ≠ .ub := by
  induction cols generalizing ws e with
  | nil => simp [excite]
  | cons c r ih =>
    have ih' := ih (fun c hc => h c (by simp [hc]))
    rw [excite]
    cases hg : gives w c with
    | none => exact ih' _ _
    | some k =>
      have := extract_not_ub (sampled := sampled) (windows := ws) (frequency := frequency) (h c (by simp) (by simp [hg]))
      rcases hx : extract sampled ws c time frequency with ⟨ws1, _ | _ | _⟩
      · exact ih' _ _
      · simp
      · rw [hx] at this; simp at this

theorem exciteAll_not_ub {sampled : Wave K → K → Option (Wave K)} {timeOf : Nat → Column K} {frequency : K} {cols : List (Column K)}
    {ids : List Nat} (h : ∀ i ∈ ids, ∀ c ∈ cols, gives i c ≠ none → c.data ≠ [] ∨ (timeOf i).data ≠ []) (ws : Windows) :
    (exciteAll sampled timeOf frequency cols ws ids).2 ≠ .ub := by
  induction ids generalizing ws with
  | nil => simp [exciteAll]
  | cons i r ih =>
    have ih' := ih (fun j hj => h j (by simp [hj]))
    rw [exciteAll]
    have := excite_not_ub (sampled := sampled) (frequency := frequency) (h i (by simp)) ws {}
    rcases hx : excite sampled (timeOf i) frequency i ws {} cols with ⟨ws1, _ | _ | _⟩
    · simp only
      have := ih' ws1
      rcases hr : exciteAll sampled timeOf frequency cols ws1 r with ⟨ws2, _ | _ | _⟩
      · simp
      · simp
      · rw [hr] at this; simp at this
    · simp
    · rw [hx] at this; simp at this

theorem typed_not_ub {time : Column K} {frequency : K} (cols : List (Column K)) (ws : Windows) : (typed time frequency ws cols).2 ≠ .ub := by
  induction cols generalizing ws with
  | nil => simp [typed]
  | cons c r ih =>
    rw [typed]
    rcases ht : canBeTime c.data with _ | _ | _
    · simp
    · simp only
      have hne : c.data ≠ [] := by intro h; rw [h] at ht; simp [canBeTime] at ht
      have hraw : (extractRaw ws c time frequency).2 ≠ .ub := fun hc => hne (extract_undefined.1 hc).1
      rcases hx : extractRaw ws c time frequency with ⟨ws1, _ | _ | _⟩
      · simp only
        have := ih ws1
        rcases hr : typed time frequency ws1 r with ⟨ws2, _ | _ | _⟩
        · simp
        · simp
        · rw [hr] at this; simp at this
      · simp
      · rw [hx] at hraw; simp at hraw
    · exact ih ws

theorem typed_inv {time : Column K} {frequency : K} {cols cs : List (Column K)} {ws ws' : Windows}
    (h : typed time frequency ws cols = (ws', .ok cs)) : ∀ c ∈ cs, canBeTime c.data = some false := by
  induction cols generalizing ws cs with
  | nil => simp [typed] at h; obtain ⟨_, rfl⟩ := h; simp
  | cons c r ih =>
    rw [typed] at h
    rcases ht : canBeTime c.data with _ | _ | _
    · rw [ht] at h; simp at h
    · rw [ht] at h
      simp only at h
      rcases hx : extractRaw ws c time frequency with ⟨ws1, _ | _ | _⟩
      · rw [hx] at h
        simp only at h
        rcases hr : typed time frequency ws1 r with ⟨ws2, _ | _ | _⟩
        · rw [hr] at h
          simp only [Prod.mk.injEq, Res.ok.injEq] at h
          obtain ⟨rfl, rfl⟩ := h
          intro x hx
          rcases List.mem_cons.1 hx with rfl | hx
          · exact ht
          · exact ih hr x hx
        · rw [hr] at h; simp at h
        · rw [hr] at h; simp at h
      · rw [hx] at h; simp at h
      · rw [hx] at h; simp at h
    · rw [ht] at h; exact ih h

theorem numbered_not_ub (cols : List (Column K)) : numbered cols ≠ .ub := by
  induction cols with
  | nil => simp [numbered]
  | cons c r ih =>
    rw [numbered]
    rcases canBeTime c.data with _ | b
    · simp
    · simp only
      split
      · simp
      · rcases hr : numbered r with _ | _ | _
        · simp
        · simp
        · exact absurd hr ih

theorem windingIndexes_not_ub (cols : List (Column K)) : windingIndexes cols ≠ .ub := by
  unfold windingIndexes
  rcases hr : numbered cols with _ | _ | _
  · simp
  · simp
  · exact absurd hr (numbered_not_ub cols)

/-- **C284.** Without names nothing is undefined, whatever the columns. -/
theorem automatic_defined (sampled : Wave K → K → Option (Wave K)) (r : Reader K) (n : Nat) (frequency : K) :
    (operatingPoint sampled r n frequency none).2 ≠ .ub := by
  unfold operatingPoint
  simp only
  rcases hrec : recognise r frequency with ⟨r1, _ | _ | _⟩
  · simp only
    have hd : ∀ c ∈ r1.columns, c.data ≠ [] := by
      unfold recognise at hrec
      rcases hw : windingIndexes r.columns with cs | _ | _
      · rw [hw] at hrec
        simp only at hrec
        rcases ht : typed r.time frequency r.windows cs with ⟨ws, cs' | _ | _⟩
        · rw [ht] at hrec
          simp only [Prod.mk.injEq] at hrec
          rw [← hrec.1]
          intro c hc h0
          have := typed_inv ht c hc
          rw [h0] at this; simp [canBeTime] at this
        · rw [ht] at hrec; simp at hrec
        · rw [ht] at hrec; simp at hrec
      · rw [hw] at hrec; simp at hrec
      · rw [hw] at hrec; simp at hrec
    have := exciteAll_not_ub (sampled := sampled) (timeOf := fun _ => r1.time) (frequency := frequency) (cols := r1.columns)
      (ids := List.range n) (fun i _ c hc _ => .inl (hd c hc)) r1.windows
    rcases hx : exciteAll sampled (fun _ => r1.time) frequency r1.columns r1.windows (List.range n) with ⟨ws, _ | _ | _⟩
    · simp
    · simp
    · rw [hx] at this; simp at this
  · simp
  · exfalso
    unfold recognise at hrec
    rcases hw : windingIndexes r.columns with cs | _ | _
    · rw [hw] at hrec
      simp only at hrec
      have := typed_not_ub (time := r.time) (frequency := frequency) cs r.windows
      rcases ht : typed r.time frequency r.windows cs with ⟨ws, cs' | _ | _⟩
      · rw [ht] at hrec; simp at hrec
      · rw [ht] at hrec; simp at hrec
      · rw [ht] at this; simp at this
    · rw [hw] at hrec; simp at hrec
    · exact windingIndexes_not_ub _ hw

theorem mem_lastOf {cols : List (Column K)} {w : Nat} {k : DataType} {c : Column K} (h : lastOf cols w k = some c) : c ∈ cols := by
  have := List.mem_of_find?_eq_some h; simpa using this

/-- **C284.** With names nothing is undefined either, if no column of the file is without samples. -/
theorem named_defined_partial (sampled : Wave K → K → Option (Wave K)) (r : Reader K) (n : Nat) (frequency : K) (names : List Names)
    (hd : ∀ c ∈ r.columns, c.data ≠ []) : (operatingPoint sampled r n frequency (some names)).2 ≠ .ub := by
  unfold operatingPoint
  simp only
  have hd' : ∀ c ∈ assign r.columns 0 names, c.data ≠ [] := by
    intro c hc
    obtain ⟨i, ns, k, c', hc', _, _, rfl⟩ := mem_assign.1 hc
    exact hd c' hc'
  have := exciteAll_not_ub (sampled := sampled) (timeOf := timeForWinding { r with columns := assign r.columns 0 names })
    (frequency := frequency) (cols := assign r.columns 0 names) (ids := List.range n) (fun i _ c hc _ => .inl (hd' c hc)) r.windows
  rcases hx : exciteAll sampled (timeForWinding { r with columns := assign r.columns 0 names }) frequency (assign r.columns 0 names) r.windows
    (List.range n) with ⟨ws, _ | _ | _⟩
  · simp
  · simp
  · rw [hx] at this; simp at this

end

/-- A file whose signal and second time have no samples. -/
def holes : Text := "time,V,t2\n0,,\n1,,\n2,,\n".toList

/-- **C284.** A file with columns without samples is read, as a time comes before them; naming them makes the operating point undefined: the last of no
times is taken. -/
theorem named_undefined :
    ∃ cols time, read stod holes = .ok (cols, time) ∧
      (operatingPoint asIs { columns := cols, time := time } 1 (1 / 2 : ℚ) (some [{ voltage := some ['V'], time := some "t2".toList }])).2 = .ub :=
  ⟨[{ name := "time".toList, data := [0, 1, 2] }, { name := ['V'] }, { name := "t2".toList }],
    { name := "time".toList, data := [0, 1, 2], kind := some .time }, by decide +kernel, by decide +kernel⟩

/-- **C283.** A reader asked for the voltage of a winding by its name no longer has the other columns: asked then for a current, it gives a point
without any, and no error. -/
theorem columns_gone_counterexample :
    let r : Reader ℚ := { columns := [clock, square, { square with name := "I1".toList }], time := clock }
    let second := some [{ current := some "I1".toList : Names }]
    (operatingPoint asIs (operatingPoint asIs r 1 (1 / 4) (some [{ voltage := some square.name }])).1 1 (1 / 4) second).2 = .ok [{}] ∧
      (operatingPoint asIs r 1 (1 / 4) second).2 =
        .ok [{ frequency := some (1 / 4), current := some { time := [0, 1, 2, 3, 4], data := [1, -1, -1, 1, 1] } }] := by
  exact ⟨by decide +kernel, by decide +kernel⟩

end Verif.Reader
