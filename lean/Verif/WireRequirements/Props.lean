import Verif.WireRequirements.Lemmas
import Mathlib.Data.Rat.Floor

/-! # C27: the insulation requirements for wires -/

set_option linter.unusedSectionVars false
set_option linter.unusedSimpArgs false

namespace Verif.WireRequirements

open Verif.SectionInterface (Cls Res)

variable {K : Type} [Zero K]

/-! ## Specification -/

/-- Layers a requirement asks for; none stated counts as none. -/
def layersOf (q : Req K) : Int := match q.layers with | some n => n | none => 0

/-- Grade a requirement asks for; none stated counts as none. -/
def gradeOf (q : Req K) : Int := match q.grade with | some n => n | none => 0

/-- Two neighbouring windings insulate each other without margin tape: three layers together, or grade four. -/
def SelfInsulating (a b : Req K) : Prop := 3 ≤ layersOf a + layersOf b ∨ 4 ≤ gradeOf a + gradeOf b

/-- The order in which windings follow each other in the coil: the pattern, repeated. -/
def woundOrder (pattern : List Nat) (repetitions : Nat) : List Nat :=
  (List.replicate (max 1 repetitions) pattern).flatten

/-- No two neighbours of the wound coil need margin tape. -/
def NoMarginNeeded (combo : List (Req K)) (pattern : List Nat) (repetitions : Nat) : Prop :=
  (woundOrder pattern repetitions).IsChain
    (fun i j => ∃ a b, combo[i]? = some a ∧ combo[j]? = some b ∧ SelfInsulating a b)

/-- The insulation requirements of the inputs are what they were. -/
def SameInsulation (a b : Inputs) : Prop := a.insulation = b.insulation ∧ a.windings = b.windings

/-! ## Theorems -/

theorem pairOk_iff {a b : Req K} : pairNeedsMargin a b = false ↔ SelfInsulating a b := by
  have h1 : ∀ o : Option Int, o.getD 0 = (match o with | some n => n | none => 0) := by
    intro o; cases o <;> rfl
  unfold pairNeedsMargin SelfInsulating layersOf gradeOf
  rw [h1, h1, h1, h1, Bool.and_eq_false_iff, decide_eq_false_iff_not, decide_eq_false_iff_not, not_lt, not_lt]

/-- `needs_margin` answers no only when no two neighbours of the whole wound coil need margin. -/
theorem needsMargin_false {combo : List (Req K)} {pattern : List Nat} {rep : Nat}
    (h : needsMargin combo pattern rep = some false) : NoMarginNeeded combo pattern rep := by
  unfold NoMarginNeeded woundOrder
  have conv : ∀ i j, PairOk combo i j → ∃ a b, combo[i]? = some a ∧ combo[j]? = some b ∧ SelfInsulating a b := by
    rintro i j ⟨a, b, ha, hb, hp⟩
    exact ⟨a, b, ha, hb, pairOk_iff.mp hp⟩
  cases pattern with
  | nil =>
    have : (List.replicate (max 1 rep) ([] : List Nat)).flatten = [] := by simp
    rw [this]; simp
  | cons p l =>
    simp only [needsMargin] at h
    obtain ⟨h1, h2⟩ := needsMarginFrom_false h
    refine List.IsChain.imp conv ?_
    rcases Nat.eq_zero_or_pos rep with rfl | hr
    · simpa using h1
    · refine isChain_replicate h1 ?_ _
      intro x y hx hy
      simp only [List.head?_cons, Option.some.injEq] at hy
      subst hy
      exact h2 (by omega) x hx

theorem requirements_cases {inp inp' : Inputs} {wv : Cls → Option K} {fiw am : Bool} {pattern : List Nat}
    {rep : Nat} {cs : List (List (Req K))} (h : requirements inp wv fiw am pattern rep = (.ok cs, inp')) :
    (inp.insulation = none ∧ cs = [List.replicate inp.windings functionalReq] ∧ inp'.insulation = none) ∨
    ∃ ty v cls extra, inp.insulation = some (some ty) ∧ wv ty = some v ∧
      cls = (if (ty = .basic ∨ ty = .supplementary) ∧ am = false then .double else ty) ∧
      (extra = [] ∧ cls = .functional ∨ cls ≠ .functional ∧ ∃ vb,
        wv (if cls = .double then .basic else ty) = some vb ∧
        extra = combosFor cls (fillSides inp.windings inp.sides)
          (distinct (fillSides inp.windings inp.sides) []) v vb fiw) ∧
      (am = true ∧ cs = List.replicate inp.windings functionalReq :: extra ∨
        am = false ∧ removeNeedingMargin pattern rep extra = some cs) ∧
      inp'.insulation = some (some (if cls = .double then .double else ty)) := by
  unfold requirements at h
  simp only at h
  cases hins : inp.insulation with
  | none =>
    rw [hins] at h
    simp only [Prod.mk.injEq, Res.ok.injEq] at h
    left
    refine ⟨rfl, h.1.symm, ?_⟩
    rw [← h.2]
  | some o =>
    cases o with
    | none => rw [hins] at h; simp at h
    | some ty =>
      rw [hins] at h
      simp only at h
      cases hv : wv ty with
      | none => rw [hv] at h; simp at h
      | some v =>
        rw [hv] at h
        simp only at h
        right
        have fin : ∀ (all : List (List (Req K))) (st : Inputs),
            (if am = true then ((.ok all, st) : Res (List (List (Req K))) × Inputs)
             else match removeNeedingMargin pattern rep all with
              | none => (.ub, st)
              | some r => (.ok r, st)) = (.ok cs, inp') →
            inp' = st ∧ (am = true ∧ cs = all ∨ am = false ∧ removeNeedingMargin pattern rep all = some cs) := by
          intro all st hf
          cases ham : am with
          | true =>
            rw [ham] at hf
            simp only [if_true, Prod.mk.injEq, Res.ok.injEq] at hf
            exact ⟨hf.2.symm, Or.inl ⟨rfl, hf.1.symm⟩⟩
          | false =>
            rw [ham] at hf
            simp only [Bool.false_eq_true, if_false] at hf
            cases hr : removeNeedingMargin pattern rep all with
            | none => rw [hr] at hf; simp at hf
            | some r =>
              rw [hr] at hf
              simp only [Prod.mk.injEq, Res.ok.injEq] at hf
              exact ⟨hf.2.symm, Or.inr ⟨rfl, by rw [hf.1]⟩⟩
        have assemble : ∀ (extra all : List (List (Req K))),
            all = (if am = true then [List.replicate inp.windings functionalReq] else []) ++ extra →
            (am = true ∧ cs = all ∨ am = false ∧ removeNeedingMargin pattern rep all = some cs) →
            (am = true ∧ cs = List.replicate inp.windings functionalReq :: extra ∨
              am = false ∧ removeNeedingMargin pattern rep extra = some cs) := by
          intro extra all hall hcs
          rcases hcs with ⟨ha, hc⟩ | ⟨ha, hc⟩
          · left; refine ⟨ha, ?_⟩; rw [hc, hall, if_pos ha]; rfl
          · right; refine ⟨ha, ?_⟩
            rw [hall, ha] at hc
            simpa using hc
        set cls : Cls := if (ty = .basic ∨ ty = .supplementary) ∧ am = false then .double else ty with hcls
        by_cases c1 : cls = .functional
        · rw [if_pos c1] at h
          obtain ⟨e1, e2⟩ := fin _ _ h
          refine ⟨ty, v, cls, [], rfl, hv, rfl, Or.inl ⟨rfl, c1⟩, ?_, ?_⟩
          · exact assemble [] _ (by simp) e2
          · rw [e1, if_neg (by rw [c1]; simp)]
        · rw [if_neg c1] at h
          by_cases c2 : cls = .double
          · rw [if_pos c2] at h
            cases hb : wv .basic with
            | none => rw [hb] at h; simp at h
            | some vb =>
              rw [hb] at h
              simp only at h
              obtain ⟨e1, e2⟩ := fin _ _ h
              refine ⟨ty, v, cls, _, rfl, hv, rfl,
                Or.inr ⟨c1, vb, by rw [if_pos c2]; exact hb, rfl⟩, assemble _ _ rfl e2, ?_⟩
              rw [e1, if_pos c2]
          · rw [if_neg c2] at h
            obtain ⟨e1, e2⟩ := fin _ _ h
            refine ⟨ty, v, cls, _, rfl, hv, rfl,
              Or.inr ⟨c1, v, by rw [if_neg c2]; exact hv, rfl⟩, assemble _ _ rfl e2, ?_⟩
            rw [e1, if_neg c2]

/-- C27: when margin tape is not allowed, no returned combination needs margin anywhere in the wound coil. -/
theorem no_margin_needed {inp inp' : Inputs} {wv : Cls → Option K} {fiw : Bool} {pattern : List Nat}
    {rep : Nat} {cs : List (List (Req K))} (hins : inp.insulation ≠ none)
    (h : requirements inp wv fiw false pattern rep = (.ok cs, inp')) :
    ∀ c ∈ cs, NoMarginNeeded c pattern rep := by
  intro c hc
  rcases requirements_cases h with ⟨h0, _⟩ | ⟨ty, v, cls, extra, _, _, _, _, h5, _⟩
  · exact absurd h0 hins
  · rcases h5 with ⟨h5, _⟩ | ⟨_, h5⟩
    · cases h5
    · exact needsMargin_false ((removeNeedingMargin_mem h5 c).mp hc).2

/-- Specification: the pattern as the function looks at it, closed by its first winding when it is repeated. -/
def closedPattern (pattern : List Nat) (repetitions : Nat) : List Nat :=
  if repetitions = 0 then pattern else pattern ++ pattern.take 1

/-- No two neighbours of the closed pattern need margin tape. -/
def ClosedPatternFine (combo : List (Req K)) (pattern : List Nat) (repetitions : Nat) : Prop :=
  (closedPattern pattern repetitions).IsChain
    (fun i j => ∃ a b, combo[i]? = some a ∧ combo[j]? = some b ∧ SelfInsulating a b)

/-- C27: `needs_margin` answers exactly whether two neighbours of the pattern (closed by its first winding when there
are repetitions) do not insulate each other; it is defined for every pattern of existing windings. -/
theorem needs_margin_exact {combo : List (Req K)} {pattern : List Nat} {rep : Nat}
    (hr : ∀ i ∈ pattern, i < combo.length) :
    ∃ b, needsMargin combo pattern rep = some b ∧ (b = false ↔ ClosedPatternFine combo pattern rep) := by
  have conv : ∀ i j, PairOk combo i j ↔ ∃ a b, combo[i]? = some a ∧ combo[j]? = some b ∧ SelfInsulating a b := by
    intro i j
    unfold PairOk
    simp only [pairOk_iff]
  have hrel : (fun i j => ∃ a b, combo[i]? = some a ∧ combo[j]? = some b ∧ SelfInsulating a b) = PairOk combo := by
    funext i j; exact propext (conv i j).symm
  unfold ClosedPatternFine
  rw [hrel]
  cases pattern with
  | nil => exact ⟨false, rfl, by simp [closedPattern]⟩
  | cons p l =>
    have hp := hr p List.mem_cons_self
    have key : ∀ l : List Nat, l ≠ [] → (∀ i ∈ l, i < combo.length) →
        ∃ b, needsMarginFrom combo p rep l = some b ∧
          (b = false ↔ (if rep = 0 then l else l ++ [p]).IsChain (PairOk combo)) := by
      intro l
      induction l with
      | nil => intro h; exact absurd rfl h
      | cons i l ih =>
        intro _ hl
        have hi := hl i List.mem_cons_self
        cases l with
        | nil =>
          simp only [needsMarginFrom]
          by_cases h0 : rep = 0
          · simp [h0]
          · rw [if_neg h0, List.getElem?_eq_getElem hi, List.getElem?_eq_getElem hp, if_neg h0]
            refine ⟨_, rfl, ?_⟩
            simp [PairOk, List.getElem?_eq_getElem hi, List.getElem?_eq_getElem hp]
        | cons j l =>
          have hj := hl j (by simp)
          obtain ⟨b, hb, hiff⟩ := ih (by simp) (fun k hk => hl k (List.mem_cons_of_mem _ hk))
          simp only [needsMarginFrom]
          rw [List.getElem?_eq_getElem hi, List.getElem?_eq_getElem hj]
          simp only
          have step : (if rep = 0 then i :: j :: l else i :: j :: l ++ [p]).IsChain (PairOk combo) ↔
              PairOk combo i j ∧ (if rep = 0 then j :: l else j :: l ++ [p]).IsChain (PairOk combo) := by
            split
            · exact List.isChain_cons_cons
            · simp only [List.cons_append]
              exact List.isChain_cons_cons
          rw [step]
          by_cases hpair : pairNeedsMargin combo[i] combo[j] = true
          · rw [if_pos hpair]
            refine ⟨true, rfl, ?_⟩
            constructor
            · intro h; cases h
            · rintro ⟨⟨a, b', ha, hb', hh⟩, _⟩
              rw [List.getElem?_eq_getElem hi, Option.some.injEq] at ha
              rw [List.getElem?_eq_getElem hj, Option.some.injEq] at hb'
              rw [ha, hb', hh] at hpair
              cases hpair
          · rw [if_neg hpair]
            refine ⟨b, hb, ?_⟩
            rw [hiff]
            have : PairOk combo i j := ⟨_, _, List.getElem?_eq_getElem hi, List.getElem?_eq_getElem hj,
              by simpa using hpair⟩
            tauto
    obtain ⟨b, hb, hiff⟩ := key (p :: l) (by simp) hr
    refine ⟨b, hb, ?_⟩
    rw [hiff]
    rfl

/-- C27: for reinforced insulation without margin tape, what is returned is exactly: the combinations that leave one
isolation side bare and ask for reinforced wires on the others, and whose neighbours insulate each other. Nothing
usable is dropped. -/
theorem reinforced_kept_iff {inp inp' : Inputs} {wv : Cls → Option K} {fiw : Bool} {pattern : List Nat}
    {rep : Nat} {cs : List (List (Req K))} (hins : inp.insulation = some (some .reinforced))
    (h : requirements inp wv fiw false pattern rep = (.ok cs, inp')) :
    ∃ (pw : List Nat) (v : K), inp'.sides = some pw ∧ wv .reinforced = some v ∧
      ((∀ i ∈ pattern, i < pw.length) → ∀ c, c ∈ cs ↔
        (∃ bare ∈ pw, c = pw.map (fun s =>
          if s = bare then ⟨some 1, some 1, 0⟩ else ⟨if fiw then some 3 else none, some 3, v⟩)) ∧
        ClosedPatternFine c pattern rep) := by
  cases hv : wv .reinforced with
  | none => simp [requirements, hins, hv] at h
  | some v =>
    simp [requirements, hins, hv, combosFor] at h
    cases hr : removeNeedingMargin pattern rep (List.map (fun s => oneSideBare (fillSides inp.windings inp.sides) s
        (reinforcedReq v fiw)) (distinct (fillSides inp.windings inp.sides) [])) with
    | none => rw [hr] at h; simp at h
    | some r =>
      rw [hr] at h
      simp only [Prod.mk.injEq, Res.ok.injEq] at h
      obtain ⟨h1, h2⟩ := h
      refine ⟨fillSides inp.windings inp.sides, v, by rw [← h2], rfl, ?_⟩
      intro hrange c
      rw [← h1, removeNeedingMargin_mem hr c]
      have hmem : c ∈ List.map (fun s => oneSideBare (fillSides inp.windings inp.sides) s (reinforcedReq v fiw))
          (distinct (fillSides inp.windings inp.sides) []) ↔
          ∃ bare ∈ fillSides inp.windings inp.sides, c = (fillSides inp.windings inp.sides).map (fun s =>
            if s = bare then ⟨some 1, some 1, 0⟩ else ⟨if fiw then some 3 else none, some 3, v⟩) := by
        rw [List.mem_map]
        constructor
        · rintro ⟨s, hs, rfl⟩
          exact ⟨s, by simpa [mem_distinct] using hs, rfl⟩
        · rintro ⟨s, hs, rfl⟩
          exact ⟨s, by simpa [mem_distinct] using hs, rfl⟩
      rw [hmem]
      constructor
      · rintro ⟨hc, hn⟩
        refine ⟨hc, ?_⟩
        obtain ⟨b, hb, hiff⟩ := needs_margin_exact (combo := c) (pattern := pattern) (rep := rep) (by
          obtain ⟨s, _, rfl⟩ := hc
          simpa using hrange)
        rw [hb, Option.some.injEq] at hn
        exact hiff.mp hn
      · rintro ⟨hc, hf⟩
        refine ⟨hc, ?_⟩
        obtain ⟨b, hb, hiff⟩ := needs_margin_exact (combo := c) (pattern := pattern) (rep := rep) (by
          obtain ⟨s, _, rfl⟩ := hc
          simpa using hrange)
        rw [hb, hiff.mpr hf]

/-- Three windings on three sides, all next to each other: leaving any one bare is fine since the others have three
layers each. -/
example : (requirements (K := ℚ) ⟨3, some [0, 1, 2], some (some .reinforced)⟩ (fun _ => some 3000) true false
    [0, 1, 2] 1).1 ≠ .ok [] ∧ ClosedPatternFine (K := ℚ) [functionalReq, reinforcedReq 3000 true] [0, 1] 1 := by
  refine ⟨by decide +kernel, ?_⟩
  obtain ⟨b, hb, hiff⟩ := needs_margin_exact (K := ℚ) (combo := [functionalReq, reinforcedReq 3000 true])
    (pattern := [0, 1]) (rep := 1) (by simp)
  apply hiff.mp
  have : needsMargin (K := ℚ) [functionalReq, reinforcedReq 3000 true] [0, 1] 1 = some false := by decide +kernel
  rw [this, Option.some.injEq] at hb
  exact hb.symm

/-- C27: the isolation side of each winding after the call: what was stated, and its own position where nothing was
stated. -/
theorem sides_after {inp inp' : Inputs} {wv : Cls → Option K} {fiw am : Bool} {pattern : List Nat}
    {rep : Nat} {r : Res (List (List (Req K)))} (h : requirements inp wv fiw am pattern rep = (r, inp')) :
    ∃ pw, inp'.sides = some pw ∧ pw = fillSides inp.windings inp.sides ∧
      (∀ (l : List Nat) (i s : Nat), inp.sides = some l → l[i]? = some s → pw[i]? = some s) ∧
      (∀ i, i < inp.windings → (∀ l : List Nat, inp.sides = some l → l.length ≤ i) → pw[i]? = some i) := by
  refine ⟨fillSides inp.windings inp.sides, ?_, rfl, ?_, ?_⟩
  · have h2 : inp' = (requirements inp wv fiw am pattern rep).2 := by rw [h]
    rw [h2]
    unfold requirements
    simp only
    cases inp.insulation with
    | none => rfl
    | some o =>
      cases o with
      | none => rfl
      | some ty =>
        simp only
        cases wv ty with
        | none => rfl
        | some v =>
          simp only
          repeat' split
          all_goals rfl
  · intro l i s hl hs
    rw [hl, fillSides, List.getElem?_append_left (List.getElem?_eq_some_iff.mp hs).1]
    exact hs
  · intro i hi hl
    cases hsd : inp.sides with
    | none =>
      simp only [fillSides]
      rw [List.getElem?_range (by omega)]
    | some l =>
      have hle := hl l hsd
      simp only [fillSides]
      rw [List.getElem?_append_right hle, List.getElem?_drop, List.getElem?_range (by omega)]
      congr 1; omega

/-- C27: one requirement per winding, provided there are no more isolation sides than windings. -/
theorem one_per_winding {inp inp' : Inputs} {wv : Cls → Option K} {fiw am : Bool} {pattern : List Nat}
    {rep : Nat} {cs : List (List (Req K))} (hw : 1 ≤ inp.windings)
    (hs : ∀ l, inp.sides = some l → l.length ≤ inp.windings)
    (h : requirements inp wv fiw am pattern rep = (.ok cs, inp')) : ∀ c ∈ cs, c.length = inp.windings := by
  have hlen : (fillSides inp.windings inp.sides).length = inp.windings := by
    rw [fillSides_length _ hw]
    cases hsd : inp.sides with
    | none => simp
    | some l => have := hs l hsd; simp; exact this
  have hextra : ∀ {cls : Cls} {v vb : K} {c : List (Req K)},
      c ∈ combosFor cls (fillSides inp.windings inp.sides)
        (distinct (fillSides inp.windings inp.sides) []) v vb fiw → c.length = inp.windings := by
    intro cls v vb c hc
    rcases combosFor_shape hc with ⟨s, rfl, _⟩ | ⟨rfl, _⟩ | ⟨s, rfl, _⟩
    · simp [oneSideBare, hlen]
    · simp [hlen]
    · simp [oneSideBare, hlen]
  intro c hc
  rcases requirements_cases h with ⟨_, rfl, _⟩ | ⟨ty, v, cls, extra, _, _, _, h4, h5, _⟩
  · simp only [List.mem_singleton] at hc
    rw [hc]; simp
  · have he : ∀ c ∈ extra, c.length = inp.windings := by
      intro c hc
      rcases h4 with ⟨rfl, _⟩ | ⟨_, vb, _, rfl⟩
      · cases hc
      · exact hextra hc
    rcases h5 with ⟨_, rfl⟩ | ⟨_, h5⟩
    · rcases List.mem_cons.mp hc with rfl | hc
      · simp
      · exact he c hc
    · exact he c ((removeNeedingMargin_mem h5 c).mp hc).1

/-- C27 (partial: see `type_overwritten`): the insulation requirements of the inputs are left unchanged, unless
margin tape is not allowed and the type is basic or supplementary. -/
theorem inputs_unchanged_partial {inp inp' : Inputs} {wv : Cls → Option K} {fiw am : Bool} {pattern : List Nat}
    {rep : Nat} {cs : List (List (Req K))}
    (hty : am = true ∨ (inp.insulation ≠ some (some .basic) ∧ inp.insulation ≠ some (some .supplementary)))
    (h : requirements inp wv fiw am pattern rep = (.ok cs, inp')) : inp'.insulation = inp.insulation := by
  rcases requirements_cases h with ⟨h0, _, h2⟩ | ⟨ty, v, cls, extra, h1, _, h3, _, _, h6⟩
  · rw [h0, h2]
  · rw [h6, h1]
    have : cls = ty := by
      rw [h3]
      split
      · rename_i hc
        rcases hty with ha | ⟨n1, n2⟩
        · rw [ha] at hc; simp at hc
        · rcases hc.1 with rfl | rfl
          · exact absurd h1 n1
          · exact absurd h1 n2
      · rfl
    rw [this]
    by_cases hd : ty = .double
    · rw [if_pos hd, hd]
    · rw [if_neg hd]

/-- C27: of two windings on different isolation sides at least one is asked for an insulated wire, good for the
withstand voltage of the requirements or of basic insulation, in every combination that does not rely on
margin tape. -/
theorem different_sides_protected {inp inp' : Inputs} {wv : Cls → Option K} {fiw : Bool} {pattern : List Nat}
    {rep : Nat} {cs : List (List (Req K))} (hins : inp.insulation ≠ none)
    (h : requirements inp wv fiw false pattern rep = (.ok cs, inp')) {c : List (Req K)} (hc : c ∈ cs)
    {pw : List Nat} (hpw : inp'.sides = some pw) {i j si sj : Nat} (hi : pw[i]? = some si) (hj : pw[j]? = some sj)
    (hij : si ≠ sj) :
    ∃ q, (c[i]? = some q ∨ c[j]? = some q) ∧ (∃ n, q.layers = some n ∧ 1 ≤ n) ∧
      ∃ ty, wv ty = some q.breakdown ∧ (inp.insulation = some (some ty) ∨ ty = .basic) := by
  obtain ⟨pw', e1, e2, _⟩ := sides_after h
  rw [e1, Option.some.injEq] at hpw
  subst hpw
  rw [e2] at hi hj
  rcases requirements_cases h with ⟨h0, _⟩ | ⟨ty, v, cls, extra, h1, h2, h3, h4, h5, _⟩
  · exact absurd h0 hins
  · rcases h5 with ⟨h5, _⟩ | ⟨_, h5⟩
    · cases h5
    · have hce := ((removeNeedingMargin_mem h5 c).mp hc).1
      rcases h4 with ⟨rfl, _⟩ | ⟨_, vb, hvb, rfl⟩
      · cases hce
      · have hb : ∃ ty', wv ty' = some vb ∧ (inp.insulation = some (some ty') ∨ ty' = .basic) := by
          by_cases hd : cls = .double
          · rw [if_pos hd] at hvb; exact ⟨.basic, hvb, Or.inr rfl⟩
          · rw [if_neg hd] at hvb; exact ⟨ty, hvb, Or.inl h1⟩
        have pick : ∀ (s : Nat) (q : Req K), c = oneSideBare (fillSides inp.windings inp.sides) s q →
            c[i]? = some q ∨ c[j]? = some q := by
          intro s q hcq
          rw [hcq]
          unfold oneSideBare
          by_cases hsi : si = s
          · right
            rw [List.getElem?_map, hj]
            simp only [Option.map_some]
            rw [if_neg (by rw [← hsi]; exact fun hh => hij hh.symm)]
          · left
            rw [List.getElem?_map, hi]
            simp only [Option.map_some]
            rw [if_neg hsi]
        rcases combosFor_shape hce with ⟨s, hcq, _⟩ | ⟨hcq, _⟩ | ⟨s, hcq, _⟩
        · exact ⟨reinforcedReq v fiw, pick s _ hcq, ⟨3, rfl, by omega⟩, ty, h2, Or.inl h1⟩
        · refine ⟨basicReq vb fiw, ?_, ⟨1, rfl, by omega⟩, hb⟩
          left
          rw [hcq, List.getElem?_map, hi]
          rfl
        · exact ⟨basicReq vb fiw, pick s _ hcq, ⟨1, rfl, by omega⟩, hb⟩

/-- C27: for reinforced insulation with margin tape allowed the answer is the combination that asks for nothing,
and then one combination for each isolation side, no side twice: that side is left bare and every winding on another
side is asked for a wire good for reinforced insulation. -/
theorem reinforced_one_per_side {inp inp' : Inputs} {wv : Cls → Option K} {fiw : Bool} {pattern : List Nat}
    {rep : Nat} {cs : List (List (Req K))} (hins : inp.insulation = some (some .reinforced))
    (h : requirements inp wv fiw true pattern rep = (.ok cs, inp')) :
    ∃ (pw used : List Nat) (v : K), inp'.sides = some pw ∧ wv .reinforced = some v ∧ used.Nodup ∧ (∀ s, s ∈ used ↔ s ∈ pw) ∧
      cs = List.replicate inp.windings ⟨some 1, some 1, 0⟩ :: used.map (fun bare => pw.map (fun s =>
        if s = bare then ⟨some 1, some 1, 0⟩ else ⟨if fiw then some 3 else none, some 3, v⟩)) := by
  cases hv : wv .reinforced with
  | none => simp [requirements, hins, hv] at h
  | some v =>
    simp [requirements, hins, hv, combosFor] at h
    obtain ⟨h1, h2⟩ := h
    refine ⟨fillSides inp.windings inp.sides, distinct (fillSides inp.windings inp.sides) [], v, by rw [← h2], rfl,
      distinct_nodup _ _ List.nodup_nil, fun s => by simp [mem_distinct], ?_⟩
    rw [← h1]
    rfl

/-- C27, what fails: without margin tape, asking for the wire requirements of a design with basic insulation
overwrites its insulation type with double, and asking again gives another answer. -/
theorem type_overwritten :
    let wv : Cls → Option ℚ := fun c => if c = .double then some 3000 else some 1500
    let inp : Inputs := ⟨2, some [0, 1], some (some .basic)⟩
    (requirements inp wv true false [0, 1] 1).2 = ⟨2, some [0, 1], some (some .double)⟩ ∧
    (requirements (requirements inp wv true false [0, 1] 1).2 wv true false [0, 1] 1).1 ≠
      (requirements inp wv true false [0, 1] 1).1 := by
  decide +kernel

/-- C27: the isolation sides of the inputs are filled in as a side effect; nothing else changes there. -/
theorem sides_filled :
    (requirements (K := ℚ) ⟨3, none, none⟩ (fun _ => none) true true [0, 1] 1).2 =
      ⟨3, some [0, 1, 2], none⟩ := by
  decide +kernel

/-- Reinforced insulation without margin tape and with repeated pattern: two combinations survive. -/
example : (requirements (K := ℚ) ⟨2, some [0, 1], some (some .reinforced)⟩ (fun _ => some 3000) true false
    [0, 1] 2).1 = .ok [[functionalReq, reinforcedReq 3000 true], [reinforcedReq 3000 true, functionalReq]] := by
  decide +kernel

end Verif.WireRequirements
