import Verif.Gapping.Props

/-! # Properties of gaps processed again, and of cores that cannot be gapped: C101 and C102 -/

namespace Verif.Gapping

set_option linter.unusedSimpArgs false

/-! ## Lemmas: the closest column -/

theorem foldl_closer {p : ℚ × ℚ × ℚ} : ∀ (l : List Column) (b : Column),
    ∃ r, l.foldl (closer p) (some b) = some r ∧ (r = b ∨ r ∈ l) ∧ away r p ≤ away b p ∧ ∀ col ∈ l, away r p ≤ away col p := by
  intro l
  induction l with
  | nil => intro b; exact ⟨b, rfl, Or.inl rfl, le_refl _, by simp⟩
  | cons a rest ih =>
    intro b
    simp only [List.foldl_cons]
    by_cases h : away a p < away b p
    · have e : closer p (some b) a = some a := by simp [closer, h]
      rw [e]
      obtain ⟨r, h1, h2, h3, h4⟩ := ih a
      refine ⟨r, h1, Or.inr ?_, by linarith, ?_⟩
      · rcases h2 with rfl | h2
        · exact List.mem_cons_self
        · exact List.mem_cons_of_mem _ h2
      · intro col hc
        rcases List.mem_cons.mp hc with rfl | hc
        · exact h3
        · exact h4 col hc
    · have e : closer p (some b) a = some b := by simp [closer, h]
      rw [e]
      obtain ⟨r, h1, h2, h3, h4⟩ := ih b
      refine ⟨r, h1, ?_, h3, ?_⟩
      · rcases h2 with rfl | h2
        · exact Or.inl rfl
        · exact Or.inr (List.mem_cons_of_mem _ h2)
      · intro col hc
        rcases List.mem_cons.mp hc with rfl | hc
        · linarith [not_lt.mp h]
        · exact h4 col hc

theorem closest_spec {c : Core} {p : ℚ × ℚ × ℚ} (hne : c.columns ≠ []) :
    ∃ r, closest c p = some r ∧ r ∈ c.columns ∧ ∀ col ∈ c.columns, away r p ≤ away col p := by
  unfold closest
  cases hc : c.columns with
  | nil => exact absurd hc hne
  | cons a rest =>
    simp only [List.foldl_cons]
    have e : closer p none a = some a := rfl
    rw [e]
    obtain ⟨r, h1, h2, h3, h4⟩ := foldl_closer (p := p) rest a
    refine ⟨r, h1, ?_, ?_⟩
    · rcases h2 with rfl | h2
      · exact List.mem_cons_self
      · exact List.mem_cons_of_mem _ h2
    · intro col hm
      rcases List.mem_cons.mp hm with rfl | hm
      · exact h3
      · exact h4 col hm

/-- No two columns of a core are at the same x and z. -/
def Apart (c : Core) : Prop := ∀ a ∈ c.columns, ∀ b ∈ c.columns, a.x = b.x → a.z = b.z → a = b

theorem away_self (col : Column) (y : ℚ) : away col (col.x, y, col.z) = 0 := by simp [away]

theorem closest_own {c : Core} (hap : Apart c) {col : Column} (hm : col ∈ c.columns) (y : ℚ) :
    closest c (col.x, y, col.z) = some col := by
  obtain ⟨r, h1, h2, h3⟩ := closest_spec (c := c) (p := (col.x, y, col.z)) (List.ne_nil_of_mem hm)
  have h0 := h3 col hm
  rw [away_self] at h0
  unfold away at h0
  have hx := abs_nonneg (r.x - col.x)
  have hz := abs_nonneg (r.z - col.z)
  have ex : r.x = col.x := by
    have : |r.x - col.x| = 0 := by linarith
    linarith [abs_eq_zero.mp this]
  have ez : r.z = col.z := by
    have : |r.z - col.z| = 0 := by linarith
    linarith [abs_eq_zero.mp this]
  rw [h1, hap r h2 col hm ex ez]

theorem onColumn_own (col : Column) (y : ℚ) : onColumn (col.x, y, col.z) col = true := by
  unfold onColumn
  rw [away_self]
  simp

theorem aligned_of_on {c : Core} {gaps : List Gap} (h : ∀ g ∈ gaps, ∃ col ∈ c.columns, On g col) :
    misaligned c gaps = false := by
  unfold misaligned
  rw [List.any_eq_false]
  intro g hg
  obtain ⟨col, hm, hon⟩ := h g hg
  obtain ⟨y, hy⟩ := hon.place
  rw [hy]
  simp only [Bool.not_eq_true', Bool.not_eq_false]
  exact List.any_eq_true.mpr ⟨col, hm, onColumn_own col y⟩

/-- The gap `whereItIs` makes. -/
theorem whereItIs_ok {c : Core} {g g' : Gap} :
    whereItIs c g = .ok g' ↔ ∃ (p : ℚ × ℚ × ℚ) (col : Column) (w : Option ℚ), g.coords = some p ∧
      closest c p = some col ∧ c.windows.head? = some w ∧ 0 ≤ rd (col.height / 2 - |p.2.1| - g.length / 2) ∧
      g' = laid w col g.kind g.length p (rd (col.height / 2 - |p.2.1| - g.length / 2)) := by
  unfold whereItIs
  cases hg : g.coords with
  | none => simp
  | some p =>
    cases hc : closest c p with
    | none => simp [hc]
    | some col =>
      simp only [hc, layGap_ok]
      constructor
      · rintro ⟨h0, w, hw, rfl⟩; exact ⟨p, col, w, rfl, hc, hw, h0, rfl⟩
      · rintro ⟨p', col', w, hp, hc', hw, h0, rfl⟩
        obtain rfl := Option.some.inj hp
        rw [hc] at hc'
        obtain rfl := Option.some.inj hc'
        exact ⟨h0, w, hw, rfl⟩

theorem process_other (c : Core) (gaps : List Gap) : process .other c gaps =
    if misaligned c gaps || gaps.isEmpty then distribute c gaps else store gaps (Step.each (whereItIs c) gaps) := rfl

/-! ## C101: processing again -/

/-- **C101.** Gaps whose places a caller gives, on the columns, stay there; processing a second time changes nothing. -/
theorem placed_gaps_stay (c : Core) (gaps out : List Gap) (hne : gaps ≠ []) (hal : misaligned c gaps = false)
    (h : process .other c gaps = (.ok, out)) :
    out.map Gap.says = gaps.map Gap.says ∧ out.map Gap.coords = gaps.map Gap.coords ∧
      process .other c out = (.ok, out) := by
  rw [process_other, if_neg (by simp [hal, hne])] at h
  rw [store_ok, each_ok] at h
  have key : ∀ (l l' : List Gap), List.Forall₂ (fun a b => whereItIs c a = .ok b) l l' →
      l'.map Gap.says = l.map Gap.says ∧ l'.map Gap.coords = l.map Gap.coords ∧
      misaligned c l' = misaligned c l ∧ List.Forall₂ (fun a b => whereItIs c a = .ok b) l' l' := by
    intro l l' hf
    induction hf with
    | nil => exact ⟨rfl, rfl, rfl, List.Forall₂.nil⟩
    | @cons a b _ _ hab _ ih =>
      obtain ⟨i1, i2, i3, i4⟩ := ih
      obtain ⟨p, col, w, hp, hc, hw, h0, rfl⟩ := whereItIs_ok.mp hab
      refine ⟨?_, ?_, ?_, ?_⟩
      · simp only [List.map_cons, i1]; rfl
      · simp only [List.map_cons, i2, hp]; rfl
      · unfold misaligned at i3 ⊢
        simp only [List.any_cons, hp, i3, laid]
      · exact List.Forall₂.cons (whereItIs_ok.mpr ⟨p, col, w, rfl, hc, hw, h0, rfl⟩) i4
  obtain ⟨k1, k2, k3, k4⟩ := key gaps out h
  refine ⟨k1, k2, ?_⟩
  have hone : out ≠ [] := by
    intro e
    rw [e] at k1
    simp at k1
    exact hne k1
  rw [process_other, if_neg (by simp [k3, hal, hone]), store_ok, each_ok]
  exact k4

/-- The gap read a second time: the same, but for the room it says. -/
def reread (col : Column) (y : ℚ) (g : Gap) : Gap := { g with normal := some (rd (roomAt col.height y g.length)) }

/-- **C101.** Gaps that were distributed are, the second time, read where they are: nothing changes but the room they say
they leave, which becomes the room at the height they were given, rounded to nanometres; and the second time fails exactly
when that is negative for one of them. -/
theorem second_pass (c : Core) (gaps out : List Gap) (hap : Apart c) (hwin : ∃ w, c.windows.head? = some w ∧ ∀ g ∈ out, g.parallel = w)
    (hone : out ≠ []) (h : distribute c gaps = (.ok, out)) (out' : List Gap) :
    process .other c out = (.ok, out') ↔
      List.Forall₂ (fun g g' => ∃ (col : Column) (y : ℚ), col ∈ c.columns ∧ On g col ∧ g.coords = some (col.x, y, col.z) ∧
        0 ≤ rd (roomAt col.height y g.length) ∧ g' = reread col y g) out out' := by
  have hon := gaps_on_columns c gaps out h
  rw [process_other, if_neg (by simp [aligned_of_on hon, hone]), store_ok, each_ok]
  obtain ⟨w, hw, hpar⟩ := hwin
  have pointwise : ∀ g ∈ out, ∀ g', whereItIs c g = .ok g' ↔
      ∃ (col : Column) (y : ℚ), col ∈ c.columns ∧ On g col ∧ g.coords = some (col.x, y, col.z) ∧
        0 ≤ rd (roomAt col.height y g.length) ∧ g' = reread col y g := by
    intro g hg g'
    obtain ⟨col, hm, hon⟩ := hon g hg
    obtain ⟨y, hy⟩ := hon.place
    have hpg := hpar g hg
    rw [whereItIs_ok]
    constructor
    · rintro ⟨p, col', w', hp, hc, hw', h0, rfl⟩
      rw [hy] at hp
      obtain rfl := Option.some.inj hp
      rw [closest_own hap hm y] at hc
      obtain rfl := Option.some.inj hc
      rw [hw] at hw'
      obtain rfl := Option.some.inj hw'
      refine ⟨col, y, hm, hon, hy, h0, ?_⟩
      obtain ⟨k, l, co, sh, no, pa, ar, di⟩ := g
      have e1 := hon.shape
      have e2 := hon.area
      have e3 := hon.dims
      simp only at e1 e2 e3 hy hpg
      subst e1 e2 e3 hy hpg
      rfl
    · rintro ⟨col', y', hm', hon', hy', h0, rfl⟩
      have hcl := closest_own hap hm' y'
      refine ⟨(col'.x, y', col'.z), col', w, hy', hcl, hw, h0, ?_⟩
      obtain ⟨k, l, co, sh, no, pa, ar, di⟩ := g
      have e1 := hon'.shape
      have e2 := hon'.area
      have e3 := hon'.dims
      simp only at e1 e2 e3 hy' hpg
      subst e1 e2 e3 hy' hpg
      rfl
  exact ⟨fun hf => by
      have : ∀ (l l' : List Gap), (∀ g ∈ l, g ∈ out) → List.Forall₂ (fun a b => whereItIs c a = .ok b) l l' →
          List.Forall₂ (fun g g' => ∃ (col : Column) (y : ℚ), col ∈ c.columns ∧ On g col ∧
            g.coords = some (col.x, y, col.z) ∧ 0 ≤ rd (roomAt col.height y g.length) ∧ g' = reread col y g) l l' := by
        intro l l' hsub hf
        induction hf with
        | nil => exact List.Forall₂.nil
        | @cons a b l l' hab _ ih =>
          exact List.Forall₂.cons ((pointwise a (hsub a List.mem_cons_self) b).mp hab)
            (ih fun g hg => hsub g (List.mem_cons_of_mem _ hg))
      exact this out out' (fun _ hg => hg) hf,
    fun hf => by
      have : ∀ (l l' : List Gap), (∀ g ∈ l, g ∈ out) →
          List.Forall₂ (fun g g' => ∃ (col : Column) (y : ℚ), col ∈ c.columns ∧ On g col ∧
            g.coords = some (col.x, y, col.z) ∧ 0 ≤ rd (roomAt col.height y g.length) ∧ g' = reread col y g) l l' →
          List.Forall₂ (fun a b => whereItIs c a = .ok b) l l' := by
        intro l l' hsub hf
        induction hf with
        | nil => exact List.Forall₂.nil
        | @cons a b l l' hab _ ih =>
          exact List.Forall₂.cons ((pointwise a (hsub a List.mem_cons_self) b).mpr hab)
            (ih fun g hg => hsub g (List.mem_cons_of_mem _ hg))
      exact this out out' (fun _ hg => hg) hf⟩

/-- **C101.** Processing a core with one ground gap a second time is not idempotent, whatever the core and the gap: the room
the gap says it leaves goes down by half the length of the gap, within rounding. A comment of `Core.cpp` (941-948) says
that the second value was tried and gives a reluctance 28 % too high. -/
theorem ground_gap_loses_room (c : Core) (gaps out out' : List Gap) (g : Gap) (wind : Column) (hap : Apart c)
    (hg : worked gaps = [g]) (hk : g.kind = .subtractive) (hwind : windingColumn c = some wind)
    (hy : wind.y = 0) (h0 : 0 ≤ g.length) (hlen : g.length < wind.height)
    (h : distribute c gaps = (.ok, out)) (h' : process .other c out = (.ok, out')) :
    ∃ (d d' : ℚ), (out.head?.bind Gap.normal) = some d ∧ (out'.head?.bind Gap.normal) = some d' ∧
      |(d - d') - g.length / 2| ≤ 3 / (2 * 10 ^ 9) := by
  have hm : g ∈ gaps := by
    have : g ∈ worked gaps := by rw [hg]; exact List.mem_singleton_self g
    unfold worked at this
    rcases List.mem_append.mp this with hmm | hmm <;> exact List.mem_of_mem_filter hmm
  have hov := distribute_over ⟨g, hm, hk⟩ h
  have e : ofKind .subtractive gaps ++ ofKind .additive gaps = [g] := hg
  rw [e] at hov
  obtain ⟨wind', w, g0, hwind', hg0, hw, _, hget⟩ := overColumns_get hov
  rw [hwind] at hwind'
  obtain rfl := Option.some.inj hwind'
  simp only [List.head?_cons, Option.some.injEq] at hg0
  subst hg0
  have hst : startOf wind [g] g.length = (0, rd (g.length / 2), rd (wind.height / 2 - g.length / 2)) := by
    unfold startOf; rw [if_pos (by rfl), if_pos hlen]
  have hfirst := hget 0 g rfl
  rw [hst] at hfirst
  have hhead : out.head? = some (laid w wind g.kind g.length (wind.x, rd (g.length / 2), wind.z)
      (rd (wind.height / 2 - g.length / 2))) := by
    rw [List.head?_eq_getElem?, hfirst]
    simp [distAt, hy]
  have hne : out ≠ [] := by intro e; rw [e] at hhead; simp at hhead
  have hon := gaps_on_columns c gaps out h
  rw [process_other, if_neg (by simp [aligned_of_on hon, hne]), store_ok, each_ok] at h'
  cases h' with
  | nil => simp at hhead
  | @cons a b _ _ hab _ =>
    simp only [List.head?_cons, Option.some.injEq] at hhead
    subst hhead
    obtain ⟨p, col, w', hp, hc, _, _, rfl⟩ := whereItIs_ok.mp hab
    simp only [laid, Option.some.injEq] at hp
    subst hp
    rw [closest_own hap (windingColumn_mem hwind)] at hc
    obtain rfl := Option.some.inj hc
    refine ⟨_, _, rfl, rfl, ?_⟩
    simp only [laid]
    have hpos : 0 ≤ rd (g.length / 2) := rd_nonneg (by linarith)
    rw [abs_of_nonneg hpos]
    have n1 := abs_le.mp (rd_near (wind.height / 2 - g.length / 2))
    have n2 := abs_le.mp (rd_near (wind.height / 2 - rd (g.length / 2) - g.length / 2))
    have n3 := abs_le.mp (rd_near (g.length / 2))
    have e1 : (3 : ℚ) / (2 * 10 ^ 9) = 3 * (1 / (2 * 10 ^ 9)) := by norm_num
    rw [e1, abs_le]
    constructor <;> linarith [n1.1, n1.2, n2.1, n2.2, n3.1, n3.2]

theorem eCore_apart : Apart eCore := by
  intro a ha b hb hx hz
  simp only [eCore, List.mem_cons, List.not_mem_nil, or_false] at ha hb
  rcases ha with rfl | rfl | rfl <;> rcases hb with rfl | rfl | rfl <;> first | rfl | (norm_num at hx)

/-- The hypotheses of `second_pass` and `ground_gap_loses_room` hold of a ground gap of 1 mm, which is said to leave 7.5 mm
the first time and 7 mm the second. -/
example : (distribute eCore [bare .subtractive (1 / 1000)]).2.map Gap.normal =
      [some (75 / 10000), some (79975 / 10000000), some (79975 / 10000000)] ∧
    (process .other eCore (distribute eCore [bare .subtractive (1 / 1000)]).2).2.map Gap.normal =
      [some (7 / 1000), some (79975 / 10000000), some (79975 / 10000000)] := by decide +kernel

/-- **C101.** A ground gap longer than half its column is accepted the first time and refused the second: a core saved and
loaded again is no longer processed. -/
theorem ground_gap_refused_again :
    (distribute eCore [bare .subtractive (9 / 1000)]).1 = .ok ∧
    (process .other eCore (distribute eCore [bare .subtractive (9 / 1000)]).2).1 = .fails := by decide +kernel

/-- **C101.** Gaps in the middle of their columns, as spacers and residual gaps are, only have their room rounded the
second time. -/
theorem centred_gaps_same_room (col : Column) (g : Gap) (hy : col.y = 0) (hc : Centred g col) :
    ∃ (d d' : ℚ), g.normal = some d ∧ (reread col 0 g).normal = some d' ∧ g.coords = some (col.x, 0, col.z) ∧
      |d' - d| ≤ 1 / (2 * 10 ^ 9) := by
  refine ⟨_, _, hc.normal, rfl, by rw [hc.coords, hy], ?_⟩
  have e : roomAt col.height 0 g.length = (col.height - g.length) / 2 := by unfold roomAt; simp; ring
  rw [e]
  exact rd_near _

/-! ## C102: cores that cannot be gapped, failures and stacks -/

theorem each_not_ub {α β : Type} {f : α → Step β} {l : List α} (h : ∀ a ∈ l, f a ≠ .ub) : Step.each f l ≠ .ub := by
  induction l with
  | nil => simp [Step.each]
  | cons a rest ih =>
    have h1 := h a List.mem_cons_self
    have h2 := ih fun x hx => h x (List.mem_cons_of_mem _ hx)
    simp only [Step.each]
    cases hf : f a with
    | ub => exact absurd hf h1
    | fails => simp [Step.bind]
    | ok b =>
      cases hr : Step.each f rest with
      | ub => exact absurd hr h2
      | fails => simp [Step.bind]
      | ok bs => simp [Step.bind]

theorem layGap_not_ub {c : Core} (hw : c.windows ≠ []) (col : Column) (k : Kind) (len : ℚ) (p : ℚ × ℚ × ℚ) (d : ℚ) :
    layGap c col k len p d ≠ .ub := by
  unfold layGap
  split
  · simp
  · cases hc : c.windows with
    | nil => exact absurd hc hw
    | cons => simp

theorem downColumn_not_ub {c : Core} (hw : c.windows ≠ []) (col : Column) (total : Nat) (chunk rise : ℚ) :
    ∀ (gs : List Gap) (i : Nat) (o d : ℚ), downColumn c col total chunk rise i o d gs ≠ .ub := by
  intro gs
  induction gs with
  | nil => intro i o d; simp [downColumn]
  | cons g rest ih =>
    intro i o d
    simp only [downColumn]
    cases hl : layGap c col g.kind g.length (col.x, col.y + o, col.z) d with
    | ub => exact absurd hl (layGap_not_ub hw _ _ _ _ _)
    | fails => simp [Step.bind]
    | ok b =>
      simp only [Step.bind]
      generalize hx : downColumn c col total chunk rise (i + 1) (o + rise) _ rest = r
      have hn : r ≠ .ub := by rw [← hx]; exact ih _ _ _
      cases r with
      | ub => exact absurd rfl hn
      | fails => simp
      | ok bs => simp

theorem inReturns_not_ub {c : Core} (hw : c.windows ≠ []) (returns : List Column) (residuals : List Gap) :
    inReturns c returns residuals ≠ .ub := by
  unfold inReturns
  split
  · exact each_not_ub fun col _ => layGap_not_ub hw _ _ _ _ _
  · exact each_not_ub fun p _ => layGap_not_ub hw _ _ _ _ _

theorem overColumns_not_ub {c : Core} (hw : c.windows ≠ []) (hc : c.columns ≠ []) {nr residuals : List Gap} (hn : nr ≠ []) :
    overColumns c nr residuals ≠ .ub := by
  rw [overColumns_eq, splitColumns_spec]
  obtain ⟨wind, hwind⟩ : ∃ w, windingColumn c = some w := by
    unfold windingColumn
    cases hcs : c.columns with
    | nil => exact absurd hcs hc
    | cons a rest =>
      cases hf : (a :: rest).find? (fun col => decide (col.place = .central)) with
      | none => exact ⟨a, by simp⟩
      | some f => exact ⟨f, by simp⟩
  rw [hwind]
  cases nr with
  | nil => exact absurd rfl hn
  | cons g rest =>
    simp only [Option.map_some]
    generalize hd : downColumn c wind _ _ _ _ _ _ _ = r
    have hnd := downColumn_not_ub hw wind (rest.length + 1) (startOf wind (g :: rest) g.length).1
      (rd (wind.height / (((rest.length + 1 : Nat) : ℚ) + 1))) (g :: rest) 0
      (startOf wind (g :: rest) g.length).2.1 (startOf wind (g :: rest) g.length).2.2
    rw [hd] at hnd
    cases r with
    | ub => exact absurd rfl hnd
    | fails => simp [Step.bind]
    | ok down =>
      simp only [Step.bind]
      cases hr : inReturns c (returnColumns c) residuals with
      | ub => exact absurd hr (inReturns_not_ub hw _ _)
      | fails => simp
      | ok o => simp

/-- The last branch is reached with a gap that is not residual. -/
theorem overColumns_not_empty (c : Core) (gaps : List Gap)
    (h1 : ¬ ((trimmed c gaps).length < c.columns.length ∧ (ofKind .subtractive (trimmed c gaps)).length = 0))
    (h2 : ¬ (((ofKind .residual (trimmed c gaps)).length = c.columns.length ∨
      (ofKind .additive (trimmed c gaps)).length = c.columns.length) ∧ (trimmed c gaps).length = c.columns.length)) :
    ofKind .subtractive (trimmed c gaps) ++ ofKind .additive (trimmed c gaps) ≠ [] := by
  intro he
  obtain ⟨hs, ha⟩ := List.append_eq_nil_iff.mp he
  have hl := ofKind_lengths (trimmed c gaps)
  rw [hs, ha] at hl
  simp only [List.length_nil, Nat.zero_add] at hl
  have hall := all_of_length hl
  have hle : (trimmed c gaps).length ≤ c.columns.length := by
    by_cases ht : (gaps.all fun g => decide (g.kind = .residual)) = true ∧ c.columns.length < gaps.length
    · unfold trimmed; rw [if_pos ht]; simp
    · have e : trimmed c gaps = gaps := by unfold trimmed; rw [if_neg ht]
      rw [e] at hall ⊢
      by_contra hlt
      exact ht ⟨List.all_eq_true.mpr fun g hg => by simp [hall g hg], by omega⟩
  rcases Nat.lt_or_eq_of_le hle with h | h
  · exact h1 ⟨h, by rw [hs]; rfl⟩
  · exact h2 ⟨Or.inl (by rw [hl, h]), h⟩

/-- **C102.** Nothing is read past an end when the gaps of a core with a column and a winding window are processed: they
are laid, or they do not fit. -/
theorem distribute_defined (c : Core) (gaps : List Gap) (hc : c.columns ≠ []) (hw : c.windows ≠ []) :
    (distribute c gaps).1 = .ok ∨ (distribute c gaps).1 = .fails := by
  have hnub : layout c (trimmed c gaps) ≠ .ub := by
    unfold layout
    simp only
    by_cases h0 : (trimmed c gaps).length = 0
    · rw [if_pos h0]
      exact each_not_ub fun col _ => layGap_not_ub hw _ _ _ _ _
    · rw [if_neg h0]
      by_cases h1 : (trimmed c gaps).length < c.columns.length ∧ (ofKind .subtractive (trimmed c gaps)).length = 0
      · rw [if_pos h1]
        refine each_not_ub fun p _ => ?_
        cases hk : (trimmed c gaps)[min p.2 ((trimmed c gaps).length - 1)]? with
        | none =>
          have := List.getElem?_eq_none_iff.mp hk
          omega
        | some g => exact layGap_not_ub hw _ _ _ _ _
      · rw [if_neg h1]
        by_cases h2 : ((ofKind .residual (trimmed c gaps)).length = c.columns.length ∨
            (ofKind .additive (trimmed c gaps)).length = c.columns.length) ∧ (trimmed c gaps).length = c.columns.length
        · rw [if_pos h2]
          exact each_not_ub fun p _ => layGap_not_ub hw _ _ _ _ _
        · rw [if_neg h2]
          exact overColumns_not_ub hw hc
            (overColumns_not_empty c gaps h1 h2)
  unfold distribute
  cases hl : layout c (trimmed c gaps) with
  | ok out => exact Or.inl rfl
  | fails => exact Or.inr rfl
  | ub => exact absurd hl hnub

/-- **C102.** And so it is for `process_gap`, whatever places the gaps carry; for a drum with a ring the window needs a
width. -/
theorem process_defined (c : Core) (gaps : List Gap) (hc : c.columns ≠ []) (hw : c.windows ≠ []) :
    (process .other c gaps).1 = .ok ∨ (process .other c gaps).1 = .fails := by
  rw [process_other]
  by_cases hb : (misaligned c gaps || gaps.isEmpty) = true
  · rw [if_pos hb]; exact distribute_defined c gaps hc hw
  · rw [if_neg hb]
    have hnub : Step.each (whereItIs c) gaps ≠ .ub := by
      refine each_not_ub fun g hg => ?_
      unfold whereItIs
      cases hco : g.coords with
      | none =>
        exfalso
        apply hb
        have : misaligned c gaps = true := by
          unfold misaligned
          exact List.any_eq_true.mpr ⟨g, hg, by simp [hco]⟩
        simp [this]
      | some p =>
        obtain ⟨r, hr, _⟩ := closest_spec (c := c) (p := p) hc
        simp only [hr]
        exact layGap_not_ub hw _ _ _ _ _
    cases hl : Step.each (whereItIs c) gaps with
    | ok out => exact Or.inl rfl
    | fails => exact Or.inr rfl
    | ub => exact absurd hl hnub

/-- **C102.** A core whose gaps do not fit, or which cannot be gapped, keeps the gapping it had, except that residual gaps in
surplus of the columns are dropped. -/
theorem failure_keeps_gapping (f : Family) (c : Core) (gaps : List Gap) (h : (process f c gaps).1 ≠ .ok) :
    (process f c gaps).2 = gaps ∨
      ((∀ g ∈ gaps, g.kind = .residual) ∧ (process f c gaps).2 = gaps.take c.columns.length) := by
  have hstore : ∀ (l : List Gap) (s : Step (List Gap)), (store l s).1 ≠ .ok → (store l s).2 = l := by
    intro l s hs; cases s <;> simp [store] at hs ⊢
  cases f with
  | toroid => simp only [process] at h ⊢; split at h <;> simp_all
  | molded => simp only [process] at h ⊢; split at h <;> simp_all
  | semishielded => simp only [process] at h ⊢; split at h <;> simp_all
  | drumRing dims =>
    left
    simp only [process] at h ⊢
    unfold drumRing at h ⊢
    by_cases h1 : gaps.any (fun g => decide (g.kind ≠ .residual)) = true
    · rw [if_pos h1]
    · rw [if_neg h1] at h ⊢
      by_cases h2 : uneven dims = true
      · rw [if_pos h2]
      · rw [if_neg h2] at h ⊢
        cases hw : c.windows with
        | nil => rfl
        | cons w ws =>
          cases w with
          | none => rfl
          | some v => rw [hw] at h; simp at h
  | other =>
    rw [process_other] at h ⊢
    by_cases hb : (misaligned c gaps || gaps.isEmpty) = true
    · rw [if_pos hb] at h ⊢
      unfold distribute at h ⊢
      rw [hstore _ _ h]
      unfold trimmed
      split
      · rename_i ht
        refine Or.inr ⟨fun g hg => ?_, rfl⟩
        simpa using List.all_eq_true.mp ht.1 g hg
      · exact Or.inl rfl
    · rw [if_neg hb] at h ⊢
      exact Or.inl (hstore _ _ h)

/-- **C102.** Toroids, molded cores and semi-shielded drums refuse any gap, and are left without gaps otherwise. -/
theorem ungappable (f : Family) (hf : f = .toroid ∨ f = .molded ∨ f = .semishielded) (c : Core) (gaps : List Gap) :
    (gaps ≠ [] → process f c gaps = (.throws, gaps)) ∧ (gaps = [] → process f c gaps = (.ok, [])) := by
  rcases hf with rfl | rfl | rfl <;> constructor <;> intro h <;> simp [process, h]

/-- **C102.** A drum with a ring has two gaps, of the length of the clearance between both, half way up its top and its
bottom flange, whatever residual gaps it had before; it refuses others; and processing it again changes nothing. -/
theorem drum_ring_gaps (dims : Drum) (c : Core) (gaps : List Gap) :
    ((∃ g ∈ gaps, g.kind ≠ .residual) → process (.drumRing dims) c gaps = (.throws, gaps)) ∧
    ∀ out, process (.drumRing dims) c gaps = (.ok, out) →
      out.length = 2 ∧ (∀ g ∈ out, g.kind = .residual ∧ g.length = rd ((dims.k - dims.a) / 2)) ∧
        out.map (fun g => g.coords.map fun p => p.2.1) =
          [some (rd (dims.b / 2 - dims.d / 2)), some (rd (-(dims.b / 2) + dims.f / 2))] ∧
        process (.drumRing dims) c out = (.ok, out) := by
  constructor
  · rintro ⟨g, hg, hk⟩
    have : gaps.any (fun g => decide (g.kind ≠ .residual)) = true := List.any_eq_true.mpr ⟨g, hg, by simpa using hk⟩
    simp only [process, drumRing]
    rw [if_pos this]
  · intro out h
    simp only [process] at h ⊢
    unfold drumRing at h ⊢
    by_cases h1 : gaps.any (fun g => decide (g.kind ≠ .residual)) = true
    · rw [if_pos h1] at h; simp at h
    · rw [if_neg h1] at h
      by_cases h2 : uneven dims = true
      · rw [if_pos h2] at h; simp at h
      · rw [if_neg h2] at h
        cases hw : c.windows with
        | nil => rw [hw] at h; simp at h
        | cons w ws =>
          cases w with
          | none => rw [hw] at h; simp at h
          | some v =>
            rw [hw] at h
            simp only [Prod.mk.injEq, true_and] at h
            subst h
            refine ⟨rfl, ?_, ?_, ?_⟩
            · intro g hg
              simp only [List.mem_cons, List.not_mem_nil, or_false] at hg
              rcases hg with rfl | rfl <;> exact ⟨rfl, rfl⟩
            · have e1 : dims.b / 2 - dims.d / 2 = (dims.b - dims.d) / 2 := by ring
              have e2 : -(dims.b / 2) + dims.f / 2 = -(dims.b - dims.f) / 2 := by ring
              simp [annular, e1, e2]
            · rw [if_neg (by simp [annular]), if_neg h2]

/-- **C102.** A drum with a ring and flanges of two diameters is refused as not implemented; one whose second diameter is
not given, zero or the same gets its gaps. -/
theorem uneven_flanges (dims : Drum) (c : Core) (gaps : List Gap) (hres : ∀ g ∈ gaps, g.kind = .residual) (w : ℚ)
    (hw : c.windows.head? = some (some w)) :
    ((∃ v, dims.a2 = some v ∧ 0 < v ∧ rd v ≠ rd dims.a) →
      process (.drumRing dims) c gaps = (.notImplemented, gaps)) ∧
    (dims.a2 = none ∨ dims.a2 = some 0 ∨ dims.a2 = some dims.a → (process (.drumRing dims) c gaps).1 = .ok) := by
  have hany : ¬ gaps.any (fun g => decide (g.kind ≠ .residual)) = true := by
    intro h
    obtain ⟨g, hg, hk⟩ := List.any_eq_true.mp h
    exact absurd (hres g hg) (by simpa using hk)
  obtain ⟨ws, hws⟩ : ∃ ws, c.windows = some w :: ws := by
    cases hc : c.windows with
    | nil => rw [hc] at hw; simp at hw
    | cons a ws => rw [hc] at hw; simp only [List.head?_cons, Option.some.injEq] at hw; exact ⟨ws, by rw [hw]⟩
  constructor
  · rintro ⟨v, hv, h0, hne⟩
    simp only [process, drumRing]
    rw [if_neg hany, if_pos (by simp [uneven, hv, h0, hne])]
  · intro h
    simp only [process, drumRing]
    rw [if_neg hany, if_neg (by rcases h with h | h | h <;> simp [uneven, h]), hws]

/-- A drum of 8 mm in a ring of 9 mm. -/
def drum : Drum := { a := 8 / 1000, a2 := none, b := 5 / 1000, d := 1 / 1000, f := 1 / 1000, k := 9 / 1000, pi := 22 / 7 }

example : (process (.drumRing drum) eCore [bare .residual 1]).1 = .ok := by decide +kernel

/-- **C102.** The gaps of a stack of `n` cores have `n` times the area of their columns and `n` times their depth, whatever
area the gaps carried before. -/
theorem stacked_gaps (piece : Core) (n : Nat) (gaps out : List Gap)
    (h : processAll .other piece n gaps = (.ok, out)) :
    ∀ g ∈ out, ∃ col ∈ piece.columns, g.area = some (col.area * n) ∧ g.dims = some (col.width, col.depth * n) := by
  unfold processAll processData at h
  simp only at h
  have back : ∀ col ∈ (stackColumns n piece).columns, ∃ col' ∈ piece.columns,
      col.area = col'.area * n ∧ col.width = col'.width ∧ col.depth = col'.depth * n := by
    intro col hm
    simp only [stackColumns, List.mem_map] at hm
    obtain ⟨a, ha, rfl⟩ := hm
    exact ⟨a, ha, rfl, rfl, rfl⟩
  rw [process_other] at h
  split at h
  · intro g hg
    obtain ⟨col, hm, hon⟩ := gaps_on_columns _ _ _ h g hg
    obtain ⟨col', hm', e1, e2, e3⟩ := back col hm
    exact ⟨col', hm', by rw [hon.area, e1], by rw [hon.dims, e2, e3]⟩
  · rw [store_ok] at h
    intro g hg
    obtain ⟨a, _, ha⟩ := (each_get h).2.2 g hg
    obtain ⟨p, col, w, _, hc, _, _, rfl⟩ := whereItIs_ok.mp ha
    have hne : (stackColumns n piece).columns ≠ [] := by
      intro e; unfold closest at hc; rw [e] at hc; simp at hc
    obtain ⟨r, hr, hrm, _⟩ := closest_spec (c := stackColumns n piece) (p := p) hne
    rw [hr] at hc
    obtain rfl := Option.some.inj hc
    obtain ⟨col', hm', e1, e2, e3⟩ := back r hrm
    exact ⟨col', hm', by simp [laid, e1], by simp [laid, e2, e3]⟩

example : (processAll .other eCore 2 [bare .subtractive (1 / 1000)]).1 = .ok := by decide +kernel

/-- **C102.** Processing the data of a core again, without its gaps, multiplies the area of the gaps by the number of
stacks again; when the gaps then do not fit, that is what is left. -/
theorem stacking_gaps_again (piece : Core) (n m : Nat) (gaps : List Gap) :
    (processData piece m (processData piece n gaps).2).2 = gaps.map fun g =>
      { g with area := g.area.map fun a => a * (n * m), dims := g.dims.map fun d => (d.1, d.2 * (n * m)) } := by
  simp only [processData, stackGaps, List.map_map]
  apply List.map_congr_left
  intro g _
  simp only [Function.comp]
  cases g.area <;> cases g.dims <;> simp [mul_assoc]

/-- The area of the gap of a stack of two is four times that of one core. -/
theorem stacked_twice :
    (processData eCore 2 (processAll .other eCore 2 [bare .subtractive (1 / 1000)]).2).2.map Gap.area =
      [some (4 * (113 / 1000000)), some (4 * (48 / 1000000)), some (4 * (48 / 1000000))] := by decide +kernel

/-- **C102.** `process_gap_or_throw` leaves no gapping that does not fit untold. -/
theorem process_or_throw (f : Family) (c : Core) (gaps out : List Gap) :
    processOrThrow f c gaps = (.ok, out) ↔ process f c gaps = (.ok, out) := by
  unfold processOrThrow
  cases h : process f c gaps with
  | mk r l => cases r <;> simp

/-- **C102.** Setting a length that does not fit is not told, and leaves gaps with the new length and the places, the areas
and the room of the old one. -/
theorem length_too_long_not_told :
    (setLength eCore (20 / 1000) (distribute eCore [bare .subtractive (1 / 1000)]).2).1 = .ok ∧
    ((setLength eCore (20 / 1000) (distribute eCore [bare .subtractive (1 / 1000)]).2).2.head?.map
      fun g => (g.length, g.normal)) = some (20 / 1000, some (75 / 10000)) := by decide +kernel

/-- **C102.** When the length fits, every gap that is not residual has it, and the rest of the gaps are as distributing gives
them. -/
theorem length_set (c : Core) (len : ℚ) (gaps out : List Gap)
    (hfit : (distribute c (gaps.map fun g => if g.kind = .residual then g else { g with length := len })).1 = .ok)
    (h : setLength c len gaps = (.ok, out)) (hsub : ∃ g ∈ gaps, g.kind = .subtractive) :
    (∀ g ∈ out, ∃ col ∈ c.columns, On g col) ∧
      (out.take (worked gaps).length).map Gap.length = List.replicate (worked gaps).length len := by
  unfold setLength at h
  set gs := gaps.map fun g => if g.kind = .residual then g else { g with length := len } with hgs
  cases hd : distribute c gs with
  | mk r l =>
    rw [hd] at hfit h
    simp only at hfit
    subst hfit
    simp only [Prod.mk.injEq, true_and] at h
    subst h
    refine ⟨gaps_on_columns c gs l hd, ?_⟩
    have hkind : ∀ g : Gap, (if g.kind = .residual then g else { g with length := len }).kind = g.kind := by
      intro g; split <;> rfl
    have hsub' : ∃ g ∈ gs, g.kind = .subtractive := by
      obtain ⟨g, hg, hk⟩ := hsub
      refine ⟨_, List.mem_map_of_mem hg, ?_⟩
      rw [hkind, hk]
    obtain ⟨wind, down, others, _, rfl, _, hsays, _, _⟩ := ground_gaps_on_winding_column c gs l hsub' hd
    have hmap : ∀ k : Kind, k ≠ .residual → (gs.filter fun g => decide (g.kind = k)) =
        (gaps.filter fun g => decide (g.kind = k)).map fun g => { g with length := len } := by
      intro k hk
      rw [hgs, List.filter_map]
      have e : (fun g : Gap => decide (g.kind = k)) ∘ (fun g => if g.kind = .residual then g else { g with length := len }) =
          fun g => decide (g.kind = k) := by
        funext g; simp only [Function.comp, hkind]
      rw [e]
      apply List.map_congr_left
      intro g hg
      have := (List.mem_filter.mp hg).2
      simp only [decide_eq_true_iff] at this
      rw [if_neg (by rw [this]; exact hk)]
    rw [hmap .subtractive (by decide), hmap .additive (by decide), ← List.map_append] at hsays
    have hwl : ((worked gaps).map fun g => ({ g with length := len } : Gap)).map Gap.says = down.map Gap.says := hsays.symm
    have hdl : down.length = (worked gaps).length := by
      have := congrArg List.length hwl
      simpa using this.symm
    rw [← hdl, List.take_left']
    · have := congrArg (List.map Prod.snd) hwl
      simp only [List.map_map] at this
      have e1 : (Prod.snd ∘ Gap.says : Gap → ℚ) = Gap.length := by funext g; rfl
      rw [show (Prod.snd ∘ Gap.says ∘ fun g : Gap => ({ g with length := len } : Gap)) = fun _ => len from by funext g; rfl, e1] at this
      rw [← this, hdl]
      simp
    · rfl

/-! The gappings the library writes. -/

/-- **C102.** The gapping written for a ground core, and for a distributed one, puts the gaps it is asked for down the
winding column, and a residual gap in each of the others. -/
theorem created_gapping (c : Core) (len : ℚ) (number : Nat) (hn : 0 < number) (gaps out : List Gap)
    (hg : distributed len number c.columns.length = some gaps) (h : distribute c gaps = (.ok, out)) :
    ∃ (wind : Column) (down others : List Gap), windingColumn c = some wind ∧ out = down ++ others ∧
      (∀ g ∈ down, On g wind) ∧ down.map Gap.says = List.replicate number (.subtractive, len) ∧
      others.length = (returnColumns c).length ∧
      ∀ (i : Nat) (col : Column), (returnColumns c)[i]? = some col → ∃ g, others[i]? = some g ∧ Centred g col ∧
        g.says = (.residual, residualLength) := by
  unfold distributed at hg
  split at hg
  · simp at hg
  · simp only [Option.some.injEq] at hg
    subst hg
    have hsub : ∃ g ∈ List.replicate number (bare .subtractive len) ++
        List.replicate (c.columns.length - 1) (bare .residual residualLength), g.kind = .subtractive :=
      ⟨bare .subtractive len, List.mem_append_left _ (List.mem_replicate.mpr ⟨by omega, rfl⟩), rfl⟩
    obtain ⟨wind, down, others, h1, h2, h3, h4, h5, h6⟩ := ground_gaps_on_winding_column c _ out hsub h
    refine ⟨wind, down, others, h1, h2, h3, ?_, h5, ?_⟩
    · rw [h4]
      simp [bare, Gap.says]
    · intro i col hc
      obtain ⟨g, hg, hcen, hk, hl⟩ := h6 i col hc
      refine ⟨g, hg, hcen, ?_⟩
      rcases hl with ⟨_, hl⟩ | ⟨_, hl⟩
      · simp [Gap.says, hk, hl]
      · cases hr : (List.filter (fun g => decide (g.kind = Kind.residual))
            (List.replicate number (bare .subtractive len) ++
              List.replicate (c.columns.length - 1) (bare .residual residualLength)))[i]? with
        | none => rw [hr] at hl; simp at hl
        | some r =>
          rw [hr] at hl
          simp only [Option.map_some, Option.some.injEq] at hl
          have hm := List.mem_of_getElem? hr
          have hr2 : r = bare .residual residualLength := by
            rcases List.mem_append.mp (List.mem_of_mem_filter hm) with hm' | hm'
            · have := (List.mem_filter.mp hm).2
              rw [(List.mem_replicate.mp hm').2] at this
              simp [bare] at this
            · exact (List.mem_replicate.mp hm').2
          rw [hr2] at hl
          simp [Gap.says, hk, ← hl, bare]

/-- **C102.** The gapping written for spacers, and for cores without other gaps, puts one gap in the middle of every column,
additive with the length asked for or residual. -/
theorem created_everywhere (c : Core) (len : ℚ) (out : List Gap) :
    (0 < c.columns.length → distribute c (spacer len c.columns.length) = (.ok, out) →
      out.length = c.columns.length ∧ ∀ (i : Nat) (col : Column), c.columns[i]? = some col →
        ∃ g, out[i]? = some g ∧ Centred g col ∧ g.says = (.additive, len)) ∧
    (0 < c.columns.length → distribute c (residual c.columns.length) = (.ok, out) →
      out.length = c.columns.length ∧ ∀ (i : Nat) (col : Column), c.columns[i]? = some col →
        ∃ g, out[i]? = some g ∧ Centred g col ∧ g.says = (.residual, residualLength)) := by
  have hint : ∀ (k : Kind) (l : ℚ) (i : Nat), i < c.columns.length →
      intended (List.replicate c.columns.length (bare k l)) i = (k, l) := by
    intro k l i hi
    unfold intended
    have hne : List.replicate c.columns.length (bare k l) ≠ [] := by
      intro e; simp only [List.replicate_eq_nil_iff] at e; omega
    rw [List.getLast?_eq_some_getLast hne, List.getElem?_replicate, if_pos hi]
    rfl
  constructor
  · intro h0 h
    obtain ⟨h1, h2⟩ := one_gap_per_column c (spacer len c.columns.length) out (Or.inr (Or.inl ⟨by simp [spacer],
      fun g hg => by rw [(List.mem_replicate.mp hg).2]; rfl⟩)) h
    refine ⟨h1, fun i col hc => ?_⟩
    obtain ⟨g, hg, hcen, hs⟩ := h2 i col hc
    exact ⟨g, hg, hcen, by rw [hs]; exact hint _ _ i (List.getElem?_eq_some_iff.mp hc).1⟩
  · intro h0 h
    obtain ⟨h1, h2⟩ := one_gap_per_column c (residual c.columns.length) out (Or.inr (Or.inr
      fun g hg => by rw [(List.mem_replicate.mp hg).2]; rfl)) h
    refine ⟨h1, fun i col hc => ?_⟩
    obtain ⟨g, hg, hcen, hs⟩ := h2 i col hc
    exact ⟨g, hg, hcen, by rw [hs]; exact hint _ _ i (List.getElem?_eq_some_iff.mp hc).1⟩

example : (distribute eCore (spacer (1 / 1000) 3)).1 = .ok ∧ (distribute eCore (residual 3)).1 = .ok := by decide +kernel

theorem ground_is_distributed (len : ℚ) (n : Nat) : ground len n = distributed len 1 n := by
  unfold ground distributed; split <;> rfl

example : ∃ gaps, distributed (1 / 1000) 2 eCore.columns.length = some gaps ∧ (distribute eCore gaps).1 = .ok :=
  ⟨_, rfl, by decide +kernel⟩

/-! Which gaps fit. -/

theorem each_succeeds {α β : Type} {f : α → Step β} {l : List α} (h : ∀ a ∈ l, ∃ b, f a = .ok b) :
    ∃ out, Step.each f l = .ok out := by
  induction l with
  | nil => exact ⟨[], rfl⟩
  | cons a rest ih =>
    obtain ⟨b, hb⟩ := h a List.mem_cons_self
    obtain ⟨bs, hbs⟩ := ih fun x hx => h x (List.mem_cons_of_mem _ hx)
    exact ⟨b :: bs, by simp [Step.each, hb, hbs, Step.bind]⟩

theorem inMiddle_succeeds {c : Core} {w : Option ℚ} (hw : c.windows.head? = some w) {col : Column} {k : Kind} {len : ℚ}
    (h : len ≤ col.height) : ∃ g, inMiddle c col k len = .ok g := ⟨_, inMiddle_ok.mpr ⟨h, w, hw, rfl⟩⟩

theorem trimmed_subset {c : Core} {gaps : List Gap} : ∀ g ∈ trimmed c gaps, g ∈ gaps := by
  intro g hg
  unfold trimmed at hg
  split at hg
  · exact List.mem_of_mem_take hg
  · exact hg

theorem worked_trimmed {c : Core} {gaps : List Gap} :
    (ofKind .subtractive (trimmed c gaps) ++ ofKind .additive (trimmed c gaps)) ≠ [] → trimmed c gaps = gaps := by
  intro h
  unfold trimmed at h ⊢
  by_cases ht : (gaps.all fun g => decide (g.kind = .residual)) = true ∧ c.columns.length < gaps.length
  · rw [if_pos ht] at h
    exfalso
    apply h
    have hall : ∀ g ∈ gaps.take c.columns.length, g.kind = .residual := fun g hg => by
      simpa using List.all_eq_true.mp ht.1 g (List.mem_of_mem_take hg)
    rw [List.append_eq_nil_iff, ofKind, ofKind, List.filter_eq_nil_iff, List.filter_eq_nil_iff]
    exact ⟨fun g hg => by simp [hall g hg], fun g hg => by simp [hall g hg]⟩
  · rw [if_neg ht]

/-- **C102.** Gaps that leave room fit: those no longer than their column when there is at most one that is not residual,
and those no longer than twice the chunk between them when there are more. -/
theorem short_gaps_fit (c : Core) (gaps : List Gap) (hc : c.columns ≠ []) (hw : c.windows ≠ [])
    (hres : ∀ col ∈ c.columns, residualLength ≤ col.height)
    (hlen : ∀ col ∈ c.columns, ∀ g ∈ gaps, g.length ≤ col.height)
    (hmany : 2 ≤ (worked gaps).length → ∀ col ∈ c.columns, ∀ g ∈ gaps,
      g.length / 2 + 1 / (2 * 10 ^ 9) ≤ col.height / ((worked gaps).length + 1)) :
    (distribute c gaps).1 = .ok := by
  obtain ⟨w, hwh⟩ : ∃ w, c.windows.head? = some w := by
    cases hcw : c.windows with
    | nil => exact absurd hcw hw
    | cons w ws => exact ⟨w, rfl⟩
  have hl : ∀ col ∈ c.columns, ∀ g ∈ trimmed c gaps, g.length ≤ col.height :=
    fun col hm g hg => hlen col hm g (trimmed_subset g hg)
  suffices hs : ∃ out, layout c (trimmed c gaps) = .ok out by
    obtain ⟨out, ho⟩ := hs
    unfold distribute
    rw [ho]; rfl
  unfold layout
  simp only
  by_cases h0 : (trimmed c gaps).length = 0
  · rw [if_pos h0]
    exact each_succeeds fun col hm => inMiddle_succeeds hwh (hres col hm)
  · rw [if_neg h0]
    by_cases h1 : (trimmed c gaps).length < c.columns.length ∧ (ofKind .subtractive (trimmed c gaps)).length = 0
    · rw [if_pos h1]
      refine each_succeeds fun p hp => ?_
      have hpm : p.1 ∈ c.columns := List.fst_mem_of_mem_zipIdx hp
      cases hk : (trimmed c gaps)[min p.2 ((trimmed c gaps).length - 1)]? with
      | none =>
        have := List.getElem?_eq_none_iff.mp hk
        omega
      | some g => exact inMiddle_succeeds hwh (hl p.1 hpm g (List.mem_of_getElem? hk))
    · rw [if_neg h1]
      by_cases h2 : ((ofKind .residual (trimmed c gaps)).length = c.columns.length ∨
          (ofKind .additive (trimmed c gaps)).length = c.columns.length) ∧ (trimmed c gaps).length = c.columns.length
      · rw [if_pos h2]
        refine each_succeeds fun p hp => ?_
        obtain ⟨m1, m2⟩ := List.of_mem_zip hp
        exact inMiddle_succeeds hwh (hl p.1 m1 p.2 m2)
      · rw [if_neg h2]
        have hne := overColumns_not_empty c gaps h1 h2
        have ht := worked_trimmed hne
        rw [ht] at hne ⊢
        have hnr : ofKind .subtractive gaps ++ ofKind .additive gaps = worked gaps := rfl
        rw [hnr] at hne ⊢
        rw [overColumns_eq, splitColumns_spec]
        obtain ⟨wind, hwind⟩ : ∃ w, windingColumn c = some w := by
          unfold windingColumn
          cases hcs : c.columns with
          | nil => exact absurd hcs hc
          | cons a rest =>
            cases hf : (a :: rest).find? (fun col => decide (col.place = .central)) with
            | none => exact ⟨a, by simp⟩
            | some f => exact ⟨f, by simp⟩
        have hwm := windingColumn_mem hwind
        rw [hwind]
        simp only [Option.map_some]
        have hmem : ∀ g ∈ worked gaps, g ∈ gaps := by
          intro g hg
          unfold worked at hg
          rcases List.mem_append.mp hg with h | h <;> exact List.mem_of_mem_filter h
        cases hwk : worked gaps with
        | nil => exact absurd hwk hne
        | cons g rest =>
          have hgm : g ∈ gaps := hmem g (by rw [hwk]; exact List.mem_cons_self)
          obtain ⟨hg1, hg2⟩ := startOf_onGrid wind (g :: rest) g.length
          have hpos : 0 ≤ (startOf wind (g :: rest) g.length).1 ∧ 0 ≤ (startOf wind (g :: rest) g.length).2.2 := by
            unfold startOf
            by_cases hk : (g :: rest).length = 1
            · rw [if_pos hk]
              exact ⟨le_refl _, rd_nonneg (by linarith [hlen wind hwm g hgm])⟩
            · rw [if_neg hk]
              have hk2 : 2 ≤ (worked gaps).length := by
                rw [hwk]; simp only [List.length_cons] at hk ⊢; omega
              have hm := hmany hk2 wind hwm g hgm
              rw [hwk] at hm
              have hh : 0 ≤ wind.height := le_trans (by unfold residualLength; norm_num) (hres wind hwm)
              refine ⟨rd_nonneg (div_nonneg hh (by positivity)), rd_nonneg ?_⟩
              have hn := (abs_le.mp (rd_near (wind.height / (((g :: rest).length : ℚ) + 1)))).1
              linarith
          have e1 : (startOf wind (g :: rest) g.length).2.1 = (startOf wind (g :: rest) g.length).2.1 +
              ((0 : Nat) : ℚ) * rd (wind.height / (((rest.length + 1 : Nat) : ℚ) + 1)) := by simp
          have e2 : (startOf wind (g :: rest) g.length).2.2 =
              distAt (rest.length + 1) (startOf wind (g :: rest) g.length).1
                (startOf wind (g :: rest) g.length).2.2 0 := by simp [distAt]
          have hdown := downColumn_succeeds (c := c) (col := wind) (total := rest.length + 1)
            (rise := rd (wind.height / (((rest.length + 1 : Nat) : ℚ) + 1)))
            (o := (startOf wind (g :: rest) g.length).2.1) hg2 hg1 hpos.2 hpos.1 hwh (g :: rest) 0 (by simp)
          rw [← e1, ← e2] at hdown
          simp only
          rw [hdown]
          have hret : ∃ others, inReturns c (returnColumns c) (ofKind .residual gaps) = .ok others := by
            unfold inReturns
            split
            · exact each_succeeds fun col hm => inMiddle_succeeds hwh (hres col (returnColumns_mem hm))
            · refine each_succeeds fun p hp => ?_
              obtain ⟨m1, m2⟩ := List.of_mem_zip hp
              exact inMiddle_succeeds hwh (hlen p.1 (returnColumns_mem m1) p.2 (List.mem_of_mem_filter m2))
          obtain ⟨others, ho⟩ := hret
          rw [ho]
          exact ⟨_, rfl⟩

example : (∀ col ∈ eCore.columns, residualLength ≤ col.height) ∧
    (∀ col ∈ eCore.columns, ∀ g ∈ List.replicate 3 (bare .subtractive (1 / 1000)), g.length ≤ col.height) ∧
    ∀ col ∈ eCore.columns, ∀ g ∈ List.replicate 3 (bare .subtractive (1 / 1000)),
      g.length / 2 + 1 / (2 * 10 ^ 9) ≤ col.height / (3 + 1) := by decide +kernel

/-- **C102.** And ground gaps that are too long are refused: one longer than its column, or several of which the first is
longer than twice the chunk, by more than rounding. -/
theorem long_gaps_refused (c : Core) (gaps : List Gap) (wind : Column) (g0 : Gap)
    (hsub : ∃ g ∈ gaps, g.kind = .subtractive) (hwind : windingColumn c = some wind)
    (hg0 : (worked gaps).head? = some g0)
    (hlong : ((worked gaps).length = 1 ∧ wind.height + 1 / 10 ^ 9 < g0.length) ∨
      (2 ≤ (worked gaps).length ∧ wind.height / ((worked gaps).length + 1) + 1 / 10 ^ 9 < g0.length / 2)) :
    (distribute c gaps).1 ≠ .ok := by
  intro hok
  have h : distribute c gaps = (.ok, (distribute c gaps).2) := by rw [← hok]
  obtain ⟨wind', w, g0', hwind', hg0', _, hpos, _⟩ := overColumns_get (distribute_over hsub h)
  have e : ofKind .subtractive gaps ++ ofKind .additive gaps = worked gaps := rfl
  rw [e] at hg0' hpos
  rw [hwind] at hwind'
  obtain rfl := Option.some.inj hwind'
  rw [hg0] at hg0'
  obtain rfl := Option.some.inj hg0'
  have eps : (1 : ℚ) / 10 ^ 9 = 2 * (1 / (2 * 10 ^ 9)) := by norm_num
  rw [eps] at hlong
  have epos := eps_pos
  rcases hlong with ⟨h1, h2⟩ | ⟨h1, h2⟩
  · have := hpos 0 (by omega)
    unfold startOf distAt at this
    rw [if_pos h1] at this
    simp only [zero_mul, add_zero] at this
    -- a negative distance of more than half a nanometre rounds to a negative one
    have hgrid := onGrid_rd (wind.height / 2 - g0.length / 2)
    have hn := (abs_le.mp (rd_near (wind.height / 2 - g0.length / 2))).2
    obtain ⟨n, hn'⟩ := hgrid
    rw [hn'] at this hn
    have hp9 : (0 : ℚ) < 10 ^ 9 := by positivity
    have h3 : (n : ℚ) / 10 ^ 9 < 1 / 10 ^ 9 := by rw [eps]; linarith
    have h4 : n < 1 := by
      have := (div_lt_div_iff_of_pos_right hp9).mp h3
      exact_mod_cast this
    have h5 : 0 ≤ n := by
      have : (0 : ℚ) ≤ n := by
        rcases le_or_gt (0 : ℚ) (n : ℚ) with h | h
        · exact h
        · exact absurd (div_neg_of_neg_of_pos h hp9) (not_lt.mpr this)
      exact_mod_cast this
    have h6 : n = 0 := by omega
    rw [h6] at hn'
    have hn2 := (abs_le.mp (rd_near (wind.height / 2 - g0.length / 2))).2
    have hn3 := (abs_le.mp (rd_near (wind.height / 2 - g0.length / 2))).1
    rw [hn'] at hn2 hn3
    simp only [Int.cast_zero, zero_div] at hn2 hn3
    linarith
  · have := hpos 0 (by omega)
    unfold startOf distAt at this
    rw [if_neg (by omega)] at this
    simp only [Nat.zero_min, Nat.cast_zero, mul_zero, add_zero] at this
    have hn2 := (abs_le.mp (rd_near (rd (wind.height / ((worked gaps).length + 1)) - g0.length / 2))).2
    have hn3 := (abs_le.mp (rd_near (wind.height / (((worked gaps).length : ℚ) + 1)))).2
    linarith

example : (distribute eCore [bare .subtractive (17 / 1000)]).1 = .fails ∧
    (distribute eCore (List.replicate 3 (bare .subtractive (9 / 1000)))).1 = .fails := by decide +kernel

end Verif.Gapping
