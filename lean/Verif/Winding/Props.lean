import Verif.Winding.SafeLemmas
import Verif.Winding.StackLemmas
import Mathlib.Algebra.Group.Nat.Defs
import Mathlib.Algebra.GroupWithZero.Action.Defs

/-! # C64 to C67: what the sections of a coil hold and where they lie -/

namespace Verif.Winding

open Verif.Round

set_option linter.unusedSimpArgs false

/-! ## Specification -/

/-- The turns of parallel `j` in a list of proportions, read as the library reads them: the proportion
times the number of turns, rounded. -/
def share (T j : Nat) (ps : List ℚ) : ℤ := ((ps[j]?).map fun p => Round.round (p * (T : ℚ))).getD 0

/-- The conduction sections of a winding. -/
def sectionsOf (w : Nat) (secs : List Section) : List Section := secs.filter fun s => s.winding == some w

/-- The turns of parallel `j` of winding `w` over all sections. -/
def wound (T w j : Nat) (secs : List Section) : ℤ := ((sectionsOf w secs).map fun s => share T j s.props).sum

/-- Everything a section says about its turns is consistent: one proportion per parallel, a whole
non-negative number of turns of each, and the number of physical turns is their sum. -/
def Consistent (T P : Nat) (ps : List ℚ) (physical : Nat) : Prop :=
  ps.length = P ∧ (∀ p ∈ ps, ∃ k : Nat, k ≤ T ∧ p = (k : ℚ) / T) ∧
    (physical : ℤ) = ((List.range P).map fun j => share T j ps).sum

/-- The call returns a value with this property. -/
def Res.returns {α : Type} (x : Res α) (p : α → Prop) : Prop := ∃ a, x = .ok a ∧ p a

instance {α : Type} (x : Res α) (p : α → Prop) [DecidablePred p] : Decidable (x.returns p) :=
  match x with
  | .ok a => decidable_of_iff (p a) (by simp [Res.returns])
  | .refused => isFalse (by simp [Res.returns])
  | .thrown _ => isFalse (by simp [Res.returns])
  | .ub => isFalse (by simp [Res.returns])
  | .nan => isFalse (by simp [Res.returns])

/-! ## From counts to the specification -/

theorem share_props {T : Nat} (hT : 0 < T) (j : Nat) (ks : List Nat) : share T j (props T ks) = (ks.getD j 0 : ℕ) := by
  unfold share props
  rw [List.getElem?_map]
  cases h : ks[j]? with
  | none => simp [List.getD, h]
  | some k =>
    simp only [Option.map_some, Option.getD_some, List.getD, h]
    rw [div_mul_cancel₀ _ (by exact_mod_cast hT.ne')]
    exact_mod_cast Round.round_intCast (K := ℚ) (k : ℤ)

theorem sum_range_getD : ∀ ks : List Nat, ((List.range ks.length).map fun j => ((ks.getD j 0 : ℕ) : ℤ)).sum = (ks.sum : ℤ)
  | [] => rfl
  | k :: ks => by
    have ih := sum_range_getD ks
    rw [List.length_cons, List.range_succ_eq_map, List.map_cons, List.sum_cons, List.map_map]
    simp only [Function.comp_def, Nat.succ_eq_add_one, List.getD_cons_succ, List.getD_cons_zero, List.sum_cons]
    rw [ih]; push_cast; rfl

theorem consistent_props {T P : Nat} (hT : 0 < T) {ks : List Nat} (hP : ks.length = P) (hle : ∀ k ∈ ks, k ≤ T) :
    Consistent T P (props T ks) ks.sum := by
  refine ⟨by simp [props, hP], ?_, ?_⟩
  · intro p hp
    obtain ⟨k, hk, rfl⟩ := List.mem_map.mp hp
    exact ⟨k, hle k hk, rfl⟩
  · subst hP
    rw [← sum_range_getD]
    congr 1
    apply List.map_congr_left
    intro j _
    exact (share_props hT j ks).symm

/-- The sections of a winding and their bookkeeping. -/
theorem own_sections (w : Nat) (secs : List Section) :
    own w (secs.filterMap Section.piece) =
      (sectionsOf w secs).map fun s => ⟨w, s.index, s.physical, s.props, s.style⟩ := by
  induction secs with
  | nil => rfl
  | cons s rest ih =>
    unfold sectionsOf own at ih ⊢
    cases hw : s.winding with
    | none =>
      rw [List.filterMap_cons, show s.piece = none by simp [Section.piece, hw],
        List.filter_cons_of_neg (by simp [hw])]
      exact ih
    | some v =>
      rw [List.filterMap_cons,
        show s.piece = some ⟨v, s.index, s.physical, s.props, s.style⟩ by simp [Section.piece, hw]]
      simp only
      by_cases hv : v = w
      · subst hv
        rw [List.filter_cons_of_pos (by simp), List.filter_cons_of_pos (by simp [hw]), List.map_cons, ih]
      · rw [List.filter_cons_of_neg (by simpa using hv), List.filter_cons_of_neg (by simpa [hw] using hv)]
        exact ih

theorem holds_sections {T w : Nat} {secs : List Section} {rows : List (List Nat)}
    (h : Holds T (own w (secs.filterMap Section.piece)) rows) :
    (sectionsOf w secs).map (·.props) = rows.map (props T) ∧
    (sectionsOf w secs).map (·.physical) = rows.map List.sum := by
  unfold Holds at h
  rw [own_sections, List.map_map, List.map_map] at h
  exact h

theorem wound_rows {T w : Nat} (hT : 0 < T) {secs : List Section} {rows : List (List Nat)}
    (h : (sectionsOf w secs).map (·.props) = rows.map (props T)) (j : Nat) :
    wound T w j secs = (column j rows : ℕ) := by
  have e : (sectionsOf w secs).map (fun s => share T j s.props) =
      ((sectionsOf w secs).map (·.props)).map (share T j) := by rw [List.map_map]; rfl
  unfold wound column
  rw [e, h, List.map_map]
  have : (share T j ∘ props T) = fun r : List Nat => ((r.getD j 0 : ℕ) : ℤ) := by
    funext r; exact share_props hT j r
  rw [this]
  clear h e
  induction rows with
  | nil => rfl
  | cons r rows ih =>
    rw [List.map_cons, List.map_cons, List.sum_cons, List.sum_cons, ih]
    push_cast; rfl

theorem column_mem {j : Nat} {rows : List (List Nat)} {r : List Nat} (h : r ∈ rows) :
    r.getD j 0 ≤ column j rows := by
  unfold column
  exact List.le_sum_of_mem (List.mem_map.mpr ⟨r, h, rfl⟩)

theorem not_assigned {T P : Nat} (hT : 0 < T) (hP : 0 < P) :
    ∃ p ∈ props T (List.replicate P T), roundFloat p 9 ≠ 0 := by
  refine ⟨1, ?_, ?_⟩
  · have : (T : ℚ) ≠ 0 := by exact_mod_cast hT.ne'
    simp [props, div_self this, hP.ne']
  · decide +kernel

/-- Inversion of a successful winding. -/
theorem rectangular_ok {c : Ctx} {groups : Option (List Group)} {prop : Nat → ℚ} {pattern : List Nat}
    {reps : Nat} {secs : List Section} (h : windRectangularSections c groups prop pattern reps = .ok secs) :
    ∃ gs x, groups = some gs ∧
      windGroups c prop pattern reps (decide (gs.length > 1)) gs
        { rem := whole c, count := fun _ => 0, edge := (0, 0), ordinal := 0 } = .ok x ∧
      allAssigned c x.2.rem ∧ secs = x.1 := by
  unfold windRectangularSections at h
  cases groups with
  | none => simp at h
  | some gs =>
    simp only at h
    obtain ⟨x, hx, h⟩ := bind_ok h
    by_cases ha : allAssigned c x.2.rem
    · rw [if_pos ha, Res.ok.injEq] at h
      exact ⟨gs, x, rfl, hx, ha, h.symm⟩
    · rw [if_neg ha] at h
      simp at h

/-! ## C64: no turn is lost or doubled -/

/-- The windings used in the examples: 11 turns of two parallels, and 4 turns of one. -/
def sample : Ctx where
  windings := 2
  turns := fun w => if w = 0 then 11 else 4
  parallels := fun w => if w = 0 then 2 else 1
  override := fun _ => none
  inherit := fun _ => none
  orientation := .overlapping
  insulation := fun a b => if a ≠ b then some (1/10000, 1/100) else none
  wire := fun _ => (1/2000, 1/2000)
  margin := fun _ => (0, 0)

/-- A window of 6 mm by 20 mm. -/
def sampleGroup : Group := { members := [0, 1], dims := (6/1000, 20/1000), centre := (8/1000, 0), orientation := .overlapping }

/-- C64: when `wind_by_rectangular_sections` succeeds, with any groups, proportions, pattern and
repetitions, every parallel of every winding has all its turns in the sections of the winding, and each section is
consistent. -/
theorem sections_hold_every_turn {c : Ctx} {groups : Option (List Group)} {prop : Nat → ℚ} {pattern : List Nat}
    {reps : Nat} {secs : List Section} (h : windRectangularSections c groups prop pattern reps = .ok secs)
    (hb : pattern.length * reps ≤ 2 * 10 ^ 10) {w : Nat} (hw : w < c.windings) (hT : 0 < c.turns w) :
    (∀ j < c.parallels w, wound (c.turns w) w j secs = c.turns w) ∧
    ∀ s ∈ sectionsOf w secs, Consistent (c.turns w) (c.parallels w) s.props s.physical := by
  obtain ⟨gs, x, rfl, hx, ha, rfl⟩ := rectangular_ok h
  obtain ⟨hlen, hrem⟩ := good_whole c w hT
  obtain ⟨rows, cs', h1, h2, h3, h4, h5, h6, _⟩ :=
    windGroups_winding c prop pattern reps _ w hT hb gs _ x _ hlen hrem hx
  obtain ⟨h7, h8⟩ := holds_sections h3
  have hzero : cs' = List.replicate (c.parallels w) 0 := by
    rcases h6 with h6 | h6
    · exact h6
    · rcases Nat.eq_zero_or_pos (c.parallels w) with hP | hP
      · rw [h6]; simp [hP]
      · exfalso
        obtain ⟨p, hp, hne⟩ := not_assigned hT hP
        rw [h6] at h2
        have := ha w hw p (by rw [h2]; exact hp)
        exact hne this
  have hcol : ∀ j < c.parallels w, column j rows = c.turns w := by
    intro j hj
    have := h5 j
    rw [hzero] at this
    simpa [List.getD, hj] using this
  have hcol' : ∀ j, column j rows ≤ c.turns w := by
    intro j
    by_cases hj : j < c.parallels w
    · exact (hcol j hj).le
    · have := h5 j
      simp [List.getD, hj] at this
      omega
  refine ⟨fun j hj => by rw [wound_rows hT h7, hcol j hj], fun s hs => ?_⟩
  have hmem : (s.props, s.physical) ∈ rows.map fun r => (props (c.turns w) r, r.sum) := by
    have hz : (sectionsOf w x.1).map (fun s => (s.props, s.physical)) =
        rows.map fun r => (props (c.turns w) r, r.sum) := by
      have e1 : (sectionsOf w x.1).map (fun s => (s.props, s.physical)) =
          ((sectionsOf w x.1).map (·.props)).zip ((sectionsOf w x.1).map (·.physical)) := by
        rw [List.zip_map']
      rw [e1, h7, h8, List.zip_map']
    rw [← hz]
    exact List.mem_map.mpr ⟨s, hs, rfl⟩
  obtain ⟨r, hr, he⟩ := List.mem_map.mp hmem
  simp only [Prod.mk.injEq] at he
  rw [← he.1, ← he.2]
  refine consistent_props hT (h4 r hr) fun k hk => ?_
  obtain ⟨j, hj, rfl⟩ := List.mem_iff_getElem.mp hk
  have := column_mem (j := j) hr
  rw [List.getD, List.getElem?_eq_getElem hj, Option.getD_some] at this
  exact le_trans this (hcol' j)

example : (windRectangularSections sample (some [sampleGroup]) (fun _ => 1/2) [0, 1] 3).returns fun secs =>
      (sectionsOf 0 secs).map (·.physical) = [8, 8, 6] ∧ (sectionsOf 1 secs).map (·.physical) = [2, 1, 1] := by
  decide +kernel

/-- C64: the exception for unassigned turns is never thrown, and there is no undefined behaviour or
NaN, when every winding has turns and appears in the pattern (and, with several groups, belongs to one), the
pattern is wound at least once, and no group's proportions add up to zero. -/
theorem sections_never_unassigned {c : Ctx} {gs : List Group} {prop : Nat → ℚ} {pattern : List Nat} {reps : Nat}
    (hb : pattern.length * reps ≤ 2 * 10 ^ 10) (hreps : 0 < reps) (hpat : pattern ≠ [])
    (hT : ∀ w < c.windings, 0 < c.turns w) (hw : ∀ w < c.windings, w ∈ pattern)
    (hg : ∀ w < c.windings, ∃ g ∈ gs, gs.length > 1 → w ∈ g.members)
    (htot : ∀ g ∈ gs, gs.length > 1 → g.members ≠ [] → (g.members.dedup.map prop).sum ≠ 0) :
    Safe (windRectangularSections c (some gs) prop pattern reps) := by
  unfold windRectangularSections
  simp only
  refine safe_bind (windGroups_safe c prop pattern reps _ hb hreps hT (fun _ => hpat) gs _ _ (good_whole c) ?_)
    fun x hx => safe_ite (fun _ => safe_ok _) fun ha => ?_
  · intro g hg' hm hne
    exact htot g hg' (by simpa using hm) hne
  · exfalso
    apply ha
    intro w hw' p hp
    obtain ⟨hlen, hrem⟩ := good_whole c w (hT w hw')
    obtain ⟨rows, cs', h1, h2, h3, h4, h5, h6, h7⟩ :=
      windGroups_winding c prop pattern reps _ w (hT w hw') hb gs _ x _ hlen hrem hx
    obtain ⟨g, hgm, hgw⟩ := hg w hw'
    have hz := h7 ⟨g, hgm, by
      unfold groupPattern
      split
      · rename_i hm
        exact List.mem_filter.mpr ⟨hw w hw', by simpa using hgw (by simpa using hm)⟩
      · exact hw w hw', fun hm => List.ne_nil_of_mem (hgw (by simpa using hm))⟩
    rw [h2, hz] at hp
    obtain ⟨k, hk, rfl⟩ := List.mem_map.mp hp
    rw [(List.mem_replicate.mp hk).2]
    simp [roundFloat_zero]

example : Safe (windRectangularSections sample (some [sampleGroup]) (fun _ => 1/2) [0, 1] 3) :=
  sections_never_unassigned (by norm_num) (by norm_num) (by simp)
    (fun w _ => by simp only [sample]; split <;> norm_num)
    (fun w hw => by simp only [sample] at hw; have : w = 0 ∨ w = 1 := by omega
                    rcases this with rfl | rfl <;> simp)
    (fun w _ => ⟨sampleGroup, by simp, by simp⟩) (fun g _ h => by simp at h)

/-- C64: a pattern wound zero times reads the first element of an empty vector. -/
theorem sections_zero_repetitions (c : Ctx) (g : Group) (prop : Nat → ℚ) (pattern : List Nat)
    (hp : ∀ w ∈ pattern, w < c.windings) :
    windRectangularSections c (some [g]) prop pattern 0 = .ub := by
  have : ¬ ∃ w ∈ pattern, w ≥ c.windings := by
    rintro ⟨w, hw, h⟩
    have := hp w hw
    omega
  simp [windRectangularSections, windGroups, planGroup, orderedSections, addInsulation, Res.bind, this]

/-- C64: a winding without turns and with more than one parallel makes winding throw. -/
theorem sections_no_turns :
    windRectangularSections { sample with turns := fun w => if w = 0 then 0 else 4 } (some [sampleGroup])
      (fun _ => 1/2) [0, 1] 1 = .thrown unassigned := by decide +kernel

/-! ## C65: even distribution -/

theorem rectangular_single {c : Ctx} {g : Group} {prop : Nat → ℚ} {pattern : List Nat} {reps : Nat}
    {secs : List Section} (h : windRectangularSections c (some [g]) prop pattern reps = .ok secs) :
    ∃ plan x, planGroup c g prop pattern reps false true = .ok plan ∧
      windEntries c g plan (plan.entries.head?.bind Entry.winding) plan.entries none 0
        { rem := whole c, count := fun _ => 0, edge := startEdge g, ordinal := 0 } = .ok x ∧ secs = x.1 := by
  obtain ⟨gs, x, hgs, hx, ha, rfl⟩ := rectangular_ok h
  simp only [Option.some.injEq] at hgs
  subst hgs
  have hm : decide ([g].length > 1) = false := by simp
  rw [hm] at hx
  unfold windGroups at hx
  rw [if_neg (by simp)] at hx
  have hmir : mirrored false g = g := by simp [mirrored]
  rw [hmir] at hx
  obtain ⟨plan, hp, hx⟩ := bind_ok hx
  obtain ⟨y, hy, hx⟩ := bind_ok hx
  simp only [windGroups, Res.bind, Res.ok.injEq] at hx
  refine ⟨plan, y, hp, hy, ?_⟩
  rw [← hx]; simp

/-- The sections of a winding, with one group, are the slots of the abstract split. -/
theorem single_rows {c : Ctx} {g : Group} {prop : Nat → ℚ} {pattern : List Nat} {reps : Nat}
    {secs : List Section} (h : windRectangularSections c (some [g]) prop pattern reps = .ok secs)
    (hb : pattern.length * reps ≤ 2 * 10 ^ 10) {w : Nat} (hT : 0 < c.turns w) (hw : w ∈ pattern) :
    ∃ st, sectionStyle (c.turns w) (c.parallels w) (pattern.count w * reps) (c.override w) = .ok st ∧
      (sectionsOf w secs).map (·.index) = List.range (pattern.count w * reps) ∧
      (∀ s ∈ sectionsOf w secs, s.style = st) ∧
      (sectionsOf w secs).map (·.props) = (runNat st (pattern.count w * reps)
        (List.replicate (c.parallels w) (c.turns w))).map (props (c.turns w)) ∧
      (sectionsOf w secs).map (·.physical) = (runNat st (pattern.count w * reps)
        (List.replicate (c.parallels w) (c.turns w))).map List.sum ∧
      0 < pattern.count w * reps := by
  obtain ⟨plan, x, hp, hx, rfl⟩ := rectangular_single h
  obtain ⟨hlen, hrem⟩ := good_whole c w hT
  obtain ⟨a1, a2, a3, a4⟩ := group_winding (w := w) hT hb hp hx rfl hlen hrem
  obtain ⟨p1, p2, p3, p4, p5⟩ := planGroup_ok hp
  have hgp : groupPattern g pattern false = pattern := rfl
  rw [hgp] at a1 a2 a3 p1 p3
  have hpos : 0 < pattern.count w * reps := by
    have hreps : reps ≠ 0 := by
      rintro rfl
      exact p2 (by rw [p1]; simp)
    exact Nat.mul_pos (List.count_pos_iff.mpr hw) (Nat.pos_of_ne_zero hreps)
  have hcnt : (condWindings plan.entries).count w = pattern.count w * reps := by rw [p1, count_flatten]
  have hst := p5 w (p3 w hw)
  rw [p4 w (by rw [hcnt]; exact hpos.ne'), hcnt] at hst
  obtain ⟨b1, b2⟩ := holds_sections a2
  refine ⟨plan.style w, hst, ?_, ?_, b1, b2, hpos⟩
  · rw [own_sections, List.map_map] at a3
    exact a3
  · intro s hs
    refine a4 ⟨w, s.index, s.physical, s.props, s.style⟩ ?_
    rw [own_sections]
    exact List.mem_map.mpr ⟨s, hs, rfl⟩

theorem mem_index {secs : List Section} {n : Nat} (hi : secs.map (·.index) = List.range n) {s : Section}
    (hs : s ∈ secs) : secs[s.index]? = some s := by
  obtain ⟨i, hi', rfl⟩ := List.mem_iff_getElem.mp hs
  have hl : secs.length = n := by
    have := congrArg List.length hi
    simpa using this
  have : (secs.map (·.index))[i]? = some i := by
    rw [hi, List.getElem?_range (by omega)]
  rw [List.getElem?_map, List.getElem?_eq_getElem hi'] at this
  simp only [Option.map_some, Option.some.injEq] at this
  rw [this]
  exact List.getElem?_eq_getElem hi'

theorem row_of {secs : List Section} {n T : Nat} {rows : List (List Nat)}
    (hi : secs.map (·.index) = List.range n) (hp : secs.map (·.props) = rows.map (props T))
    (hs : secs.map (·.physical) = rows.map List.sum) {s : Section} (hm : s ∈ secs) :
    ∃ row, rows[s.index]? = some row ∧ s.props = props T row ∧ s.physical = row.sum := by
  have h := mem_index hi hm
  have h1 : (secs.map (·.props))[s.index]? = some s.props := by rw [List.getElem?_map, h]; rfl
  have h2 : (secs.map (·.physical))[s.index]? = some s.physical := by rw [List.getElem?_map, h]; rfl
  rw [hp, List.getElem?_map] at h1
  rw [hs, List.getElem?_map] at h2
  cases hr : rows[s.index]? with
  | none => rw [hr] at h1; simp at h1
  | some row =>
    rw [hr] at h1 h2
    simp only [Option.map_some, Option.some.injEq] at h1 h2
    exact ⟨row, rfl, h1.symm, h2.symm⟩

/-- C65: with one group, a winding of `T` turns and `P` parallels that appears `n` times in the repeated pattern
gets `n` sections. If parallels are kept together every section holds `T / n` turns of every parallel, one more in
the first `T % n`; otherwise every section holds `T * P / n` turns in all, one more in the first `T * P % n`. -/
theorem sections_even {c : Ctx} {g : Group} {prop : Nat → ℚ} {pattern : List Nat} {reps : Nat}
    {secs : List Section} (h : windRectangularSections c (some [g]) prop pattern reps = .ok secs)
    (hb : pattern.length * reps ≤ 2 * 10 ^ 10) {w : Nat} (hT : 0 < c.turns w) (hw : w ∈ pattern) :
    (sectionsOf w secs).map (·.index) = List.range (pattern.count w * reps) ∧
    ∃ st, sectionStyle (c.turns w) (c.parallels w) (pattern.count w * reps) (c.override w) = .ok st ∧
      ∀ s ∈ sectionsOf w secs, s.style = st ∧
        (st = .parallels → ∀ j < c.parallels w, share (c.turns w) j s.props =
          (c.turns w / (pattern.count w * reps) +
            if s.index < c.turns w % (pattern.count w * reps) then 1 else 0 : ℕ)) ∧
        (st = .turns → s.physical = c.turns w * c.parallels w / (pattern.count w * reps) +
            if s.index < c.turns w * c.parallels w % (pattern.count w * reps) then 1 else 0) := by
  obtain ⟨st, h1, h2, h3, h4, h5, _⟩ := single_rows h hb hT hw
  refine ⟨h2, st, h1, fun s hs => ⟨h3 s hs, ?_, ?_⟩⟩
  · rintro rfl j hj
    obtain ⟨row, hr, hp, _⟩ := row_of h2 h4 h5 hs
    have := runNat_parallels _ _ _ _ hr
    rw [hp, share_props hT, this]
    simp [List.getD, hj]
  · rintro rfl
    obtain ⟨row, hr, _, hq⟩ := row_of h2 h4 h5 hs
    have := runNat_turns_sum _ _ _ _ hr
    rw [hq, this]
    simp only [List.sum_replicate, smul_eq_mul, Nat.mul_comm (c.parallels w)]

example : (windRectangularSections sample (some [sampleGroup]) (fun _ => 1/2) [0, 1] 3).returns fun secs =>
      (sectionsOf 0 secs).map (fun s => (share 11 0 s.props, share 11 1 s.props)) = [(4, 4), (4, 4), (3, 3)] := by
  decide +kernel

/-- An earlier parallel is used up before a later one gets turns. -/
theorem fillNat_order : ∀ (k : Nat) (cs : List Nat) (j j' : Nat), j < j' →
    0 < (fillNat k cs).getD j' 0 → (fillNat k cs).getD j 0 = cs.getD j 0
  | k, [], j, j', hj, h => by simp [fillNat] at h
  | k, c :: cs, j, j', hj, h => by
    obtain ⟨m, rfl⟩ : ∃ m, j' = m + 1 := ⟨j' - 1, by omega⟩
    simp only [fillNat, List.getD_cons_succ] at h ⊢
    have hk : c ≤ k := by
      by_contra hc
      have h0 : k - c = 0 := by omega
      rw [h0, fillNat_zero] at h
      simp [List.getD, List.getElem?_replicate] at h
      split at h <;> simp at h
    cases j with
    | zero => simp; omega
    | succ i =>
      simp only [List.getD_cons_succ]
      exact fillNat_order _ cs i m (by omega) h

/-- Up to the slot where a later parallel first appears, an earlier one has had all its turns. -/
theorem runNat_order : ∀ (m : Nat) (cs : List Nat) (i : Nat) (row : List Nat) (j j' : Nat), j < j' →
    (runNat .turns m cs)[i]? = some row → 0 < row.getD j' 0 →
    column j ((runNat .turns m cs).take (i + 1)) = cs.getD j 0
  | 0, cs, i, row, j, j', hj, h, _ => by simp [runNat] at h
  | m + 1, cs, 0, row, j, j', hj, h, hpos => by
    simp only [runNat, List.getElem?_cons_zero, Option.some.injEq] at h
    subst h
    have := fillNat_order _ cs j j' hj hpos
    simp only [runNat, List.take_succ_cons, List.take_zero, column, List.map_cons, List.map_nil, List.sum_cons,
      List.sum_nil, Nat.add_zero]
    exact this
  | m + 1, cs, i + 1, row, j, j', hj, h, hpos => by
    simp only [runNat, List.getElem?_cons_succ] at h
    have ih := runNat_order m _ i row j j' hj h hpos
    have := (minus_getD j (stepNat_le .turns (m := m + 1) (by omega) cs)).1
    simp only [runNat, List.take_succ_cons, column, List.map_cons, List.sum_cons] at ih ⊢
    omega

/-- C65: when turns are wound consecutively, a parallel has had all its turns by the end of any section in which a
later parallel has some. -/
theorem sections_consecutive {c : Ctx} {g : Group} {prop : Nat → ℚ} {pattern : List Nat} {reps : Nat}
    {secs : List Section} (h : windRectangularSections c (some [g]) prop pattern reps = .ok secs)
    (hb : pattern.length * reps ≤ 2 * 10 ^ 10) {w : Nat} (hT : 0 < c.turns w) (hw : w ∈ pattern)
    {s : Section} (hs : s ∈ sectionsOf w secs) (hst : s.style = .turns) {j j' : Nat} (hj : j < j')
    (hP : j < c.parallels w) (hpos : 0 < share (c.turns w) j' s.props) :
    (((sectionsOf w secs).take (s.index + 1)).map fun t => share (c.turns w) j t.props).sum = c.turns w := by
  obtain ⟨st, h1, h2, h3, h4, h5, _⟩ := single_rows h hb hT hw
  have := h3 s hs
  rw [hst] at this
  subst this
  obtain ⟨row, hr, hp, _⟩ := row_of h2 h4 h5 hs
  rw [hp, share_props hT] at hpos
  have hcol := runNat_order _ _ _ _ j j' hj hr (by exact_mod_cast hpos)
  have e : ((sectionsOf w secs).take (s.index + 1)).map (fun t => share (c.turns w) j t.props) =
      (((sectionsOf w secs).map (·.props)).take (s.index + 1)).map (share (c.turns w) j) := by
    rw [← List.map_take, List.map_map]; rfl
  rw [e, h4, ← List.map_take, List.map_map]
  have e2 : (share (c.turns w) j ∘ props (c.turns w)) = fun r : List Nat => ((r.getD j 0 : ℕ) : ℤ) := by
    funext r; exact share_props hT j r
  rw [e2]
  have e3 : ∀ rows : List (List Nat), (rows.map fun r : List Nat => ((r.getD j 0 : ℕ) : ℤ)).sum = (column j rows : ℕ) := by
    intro rows
    induction rows with
    | nil => rfl
    | cons r rows ih =>
      rw [List.map_cons, List.sum_cons, ih]
      simp only [column, List.map_cons, List.sum_cons]
      push_cast; rfl
  rw [e3, hcol]
  simp [List.getD, hP]

/-- Two parallels of three turns over four sections: the second parallel starts in the second section. -/
example : (windRectangularSections { sample with turns := fun _ => 3 } (some [sampleGroup]) (fun _ => 1/2)
      [0, 1] 4).returns fun secs =>
      (sectionsOf 0 secs).map (fun s => (s.style, share 3 0 s.props, share 3 1 s.props)) =
      [(.turns, 2, 0), (.turns, 1, 1), (.turns, 0, 1), (.turns, 0, 1)] := by
  decide +kernel

theorem fillNat_whole (T : Nat) (m : Nat) : ∀ q : Nat,
    fillNat T (List.replicate q 0 ++ List.replicate (m + 1) T) = List.replicate q 0 ++ T :: List.replicate m 0
  | 0 => by
    simp only [List.replicate_zero, List.nil_append, List.replicate_succ, fillNat]
    rw [Nat.min_self, Nat.sub_self, fillNat_zero, List.length_replicate]
  | q + 1 => by
    rw [List.replicate_succ, List.cons_append, fillNat]
    simp only [Nat.min_zero, Nat.sub_zero]
    rw [fillNat_whole T m q]; rfl

theorem minus_whole (T : Nat) (m : Nat) : ∀ q : Nat,
    minus (List.replicate q 0 ++ List.replicate (m + 1) T) (List.replicate q 0 ++ T :: List.replicate m 0) =
      List.replicate (q + 1) 0 ++ List.replicate m T
  | 0 => by
    simp only [minus, List.replicate_zero, List.nil_append, List.replicate_succ, List.zipWith_cons_cons, Nat.sub_self,
      List.cons_append]
    congr 1
    induction m with
    | zero => rfl
    | succ m ih => simp only [List.replicate_succ, List.zipWith_cons_cons, Nat.sub_zero, ih]
  | q + 1 => by
    have := minus_whole T m q
    simp only [minus] at this ⊢
    rw [List.replicate_succ, List.cons_append, List.cons_append, List.zipWith_cons_cons, this]
    rfl

/-- With as many slots as parallels, every slot takes a whole parallel. -/
theorem runNat_whole (T : Nat) : ∀ (m q : Nat) (i : Nat) (row : List Nat),
    (runNat .turns m (List.replicate q 0 ++ List.replicate m T))[i]? = some row → ∀ j,
      row.getD j 0 = if j = q + i then T else 0
  | 0, q, i, row, h => by simp [runNat] at h
  | m + 1, q, i, row, h => by
    have hstep : stepNat .turns (m + 1) (List.replicate q 0 ++ List.replicate (m + 1) T) =
        List.replicate q 0 ++ T :: List.replicate m 0 := by
      simp only [stepNat]
      rw [← fillNat_whole T m q]
      congr 1
      simp only [List.sum_append, List.sum_replicate, smul_eq_mul, Nat.mul_zero, Nat.zero_add]
      rw [cdiv_eq (by omega)]
      simp
    intro j
    simp only [runNat, hstep, minus_whole] at h
    cases i with
    | zero =>
      simp only [List.getElem?_cons_zero, Option.some.injEq] at h
      subst h
      simp only [List.getD, List.getElem?_append, List.length_replicate, Nat.add_zero]
      split
      · rw [if_neg (by omega)]; simp [List.getElem?_replicate]; split <;> simp
      · by_cases hj : j = q
        · simp [hj]
        · obtain ⟨k, hk⟩ : ∃ k, j - q = k + 1 := ⟨j - q - 1, by omega⟩
          rw [if_neg hj, hk, List.getElem?_cons_succ, List.getElem?_replicate]
          split <;> simp
    | succ i =>
      rw [List.getElem?_cons_succ] at h
      rw [runNat_whole T m (q + 1) i row h j]
      congr 1
      apply propext
      omega

/-- C65: how the turns are kept together. Unless a style is given for the winding: if its sections divide its turns
every section holds the same whole number of turns of every parallel, except that when there are as many sections as
parallels every section holds one whole parallel. A style given is obeyed, as long as there are turns for every
section. -/
theorem sections_whole {c : Ctx} {g : Group} {prop : Nat → ℚ} {pattern : List Nat} {reps : Nat}
    {secs : List Section} (h : windRectangularSections c (some [g]) prop pattern reps = .ok secs)
    (hb : pattern.length * reps ≤ 2 * 10 ^ 10) {w : Nat} (hT : 0 < c.turns w) (hw : w ∈ pattern) {n : Nat}
    (hn : n = pattern.count w * reps) {s : Section} (hs : s ∈ sectionsOf w secs) :
    (c.override w = none → n ∣ c.turns w → (1 < c.parallels w ∧ c.parallels w ≠ n ∨ c.turns w = n) →
      s.style = .parallels ∧ ∀ j < c.parallels w, share (c.turns w) j s.props = (c.turns w / n : ℕ)) ∧
    (c.override w = none → c.parallels w = n → c.turns w ≠ n →
      s.style = .turns ∧ ∀ j < c.parallels w, share (c.turns w) j s.props =
        if j = s.index then (c.turns w : ℤ) else 0) ∧
    (∀ st, c.override w = some st → (n ≤ c.turns w ∨ c.parallels w ≤ 1) → s.style = st) := by
  obtain ⟨st, h1, h2, h3, h4, h5, h6⟩ := single_rows h hb hT hw
  obtain ⟨row, hr, hp, _⟩ := row_of h2 h4 h5 hs
  have hst := h3 s hs
  rw [← hn] at h1 h6 hr
  refine ⟨fun ho hd hcase => ?_, fun ho hPn hTn => ?_, fun st' ho hcase => ?_⟩
  · have hle := Nat.le_of_dvd hT hd
    have hmod := Nat.mod_eq_zero_of_dvd hd
    have : st = .parallels := by
      unfold sectionStyle at h1
      rw [if_neg h6.ne', if_neg (by omega), ho] at h1
      by_cases hTn : c.turns w = n
      · rw [if_pos hTn] at h1; exact (Res.ok.inj h1).symm
      · obtain ⟨hP, hne⟩ := hcase.resolve_right hTn
        rw [if_neg hTn, if_neg hne, if_pos ⟨hP, hmod⟩] at h1
        exact (Res.ok.inj h1).symm
    subst this
    refine ⟨hst, fun j hj => ?_⟩
    rw [hp, share_props hT, runNat_parallels _ _ _ _ hr]
    simp [List.getD, hj, hmod]
  · have : st = .turns := by
      unfold sectionStyle at h1
      rw [if_neg h6.ne', ho] at h1
      by_cases hc : c.turns w < n ∧ c.parallels w > 1
      · rw [if_pos hc] at h1; exact (Res.ok.inj h1).symm
      · rw [if_neg hc, if_neg hTn, if_pos hPn] at h1; exact (Res.ok.inj h1).symm
    subst this
    refine ⟨hst, fun j hj => ?_⟩
    rw [hPn] at hr
    have := runNat_whole (c.turns w) n 0 s.index row (by simpa using hr) j
    rw [hp, share_props hT, this, Nat.zero_add]
    split <;> rfl
  · have : st = st' := by
      unfold sectionStyle at h1
      rw [if_neg h6.ne', if_neg (by omega), ho] at h1
      exact (Res.ok.inj h1).symm
    rw [hst, this]

/-- Two parallels of twelve turns over three sections, and over two. -/
example : (windRectangularSections { sample with turns := fun _ => 12 } (some [sampleGroup]) (fun _ => 1/2)
      [0, 1] 3).returns (fun secs =>
      (sectionsOf 0 secs).map (fun s => (s.style, share 12 0 s.props, share 12 1 s.props)) =
      [(.parallels, 4, 4), (.parallels, 4, 4), (.parallels, 4, 4)]) ∧
    (windRectangularSections { sample with turns := fun _ => 12 } (some [sampleGroup]) (fun _ => 1/2)
      [0, 1] 2).returns (fun secs =>
      (sectionsOf 0 secs).map (fun s => (s.style, share 12 0 s.props, share 12 1 s.props)) =
      [(.turns, 12, 0), (.turns, 0, 12)]) := by
  decide +kernel

/-! ## C66: no empty section -/

theorem sectionStyle_parallels {T P n : Nat} {o : Option Style} (h : sectionStyle T P n o = .ok .parallels) :
    n ≤ T ∨ P ≤ 1 := by
  unfold sectionStyle at h
  split at h
  · simp at h
  split at h
  · simp at h
  · omega

/-- C66: with one group, whatever the override, no section of a winding is empty if the winding has at
least as many physical turns as sections; otherwise the first sections hold one turn each and the others none. -/
theorem sections_not_empty {c : Ctx} {g : Group} {prop : Nat → ℚ} {pattern : List Nat} {reps : Nat}
    {secs : List Section} (h : windRectangularSections c (some [g]) prop pattern reps = .ok secs)
    (hb : pattern.length * reps ≤ 2 * 10 ^ 10) {w : Nat} (hT : 0 < c.turns w) (hP : 0 < c.parallels w)
    (hw : w ∈ pattern) {s : Section} (hs : s ∈ sectionsOf w secs) :
    (pattern.count w * reps ≤ c.turns w * c.parallels w → 0 < s.physical) ∧
    (c.turns w * c.parallels w < pattern.count w * reps →
      s.physical = if s.index < c.turns w * c.parallels w then 1 else 0) := by
  obtain ⟨st, h1, h2, h3, h4, h5, hpos⟩ := single_rows h hb hT hw
  obtain ⟨row, hr, _, hq⟩ := row_of h2 h4 h5 hs
  cases st with
  | turns =>
    have := runNat_turns_sum _ _ _ _ hr
    rw [List.sum_replicate, smul_eq_mul, Nat.mul_comm] at this
    rw [hq, this]
    constructor
    · intro hle
      have := Nat.div_pos hle hpos
      omega
    · intro hlt
      rw [Nat.div_eq_of_lt hlt, Nat.mod_eq_of_lt hlt, Nat.zero_add]
  | parallels =>
    have hrow := runNat_parallels _ _ _ _ hr
    rw [List.map_replicate] at hrow
    rw [hq, hrow, List.sum_replicate, smul_eq_mul]
    rcases sectionStyle_parallels h1 with hn | hn
    · constructor
      · intro _
        have := Nat.div_pos hn hpos
        exact Nat.mul_pos hP (by omega)
      · intro hlt
        have := Nat.le_mul_of_pos_right (c.turns w) hP
        omega
    · have hP1 : c.parallels w = 1 := by omega
      rw [hP1, Nat.one_mul, Nat.mul_one]
      constructor
      · intro hle
        have := Nat.div_pos hle hpos
        omega
      · intro hlt
        rw [Nat.div_eq_of_lt hlt, Nat.mod_eq_of_lt hlt, Nat.zero_add]

example : (windRectangularSections { sample with turns := fun _ => 3 } (some [sampleGroup]) (fun _ => 1/2)
      [0, 1] 4).returns fun secs =>
      (sectionsOf 1 secs).map (·.physical) = [1, 1, 1, 0] := by
  decide +kernel

/-! ## C67: sections side by side -/

/-- C67: the sections of a single group, insulation included, are stacked from the group's first edge (left when
they overlap, top when they are contiguous), each beginning exactly where the one before it ends. -/
theorem sections_stacked {c : Ctx} {g : Group} {prop : Nat → ℚ} {pattern : List Nat} {reps : Nat}
    {secs : List Section} (h : windRectangularSections c (some [g]) prop pattern reps = .ok secs) :
    StackedFrom g.orientation
      (match g.orientation with
        | .overlapping => g.centre.1 - g.dims.1 / 2
        | .contiguous => g.centre.2 + g.dims.2 / 2) secs := by
  obtain ⟨plan, x, hp, hx, rfl⟩ := rectangular_single h
  have := windEntries_stacked c g plan _ _ _ _ _ x hx
  convert this using 1
  cases ho : g.orientation <;> simp [runEdge, startEdge, thickness, ho]

/-- C67 (the part that holds): together they take the size of the group to within half a nanometre per
section when the proportions of the windings in the pattern add up to one and coil and group have the same
orientation; plus, when sections overlap, the insulation between the last winding of the pattern and the first. -/
theorem sections_fill_window_partial {c : Ctx} {g : Group} {prop : Nat → ℚ} {pattern : List Nat} {reps : Nat}
    {secs : List Section} (h : windRectangularSections c (some [g]) prop pattern reps = .ok secs)
    (ho : g.orientation = c.orientation) (hsum : (pattern.dedup.map prop).sum = 1) (hreps : 0 < reps)
    {a b : Nat} (hfirst : pattern.head? = some a) (hlast : pattern.getLast? = some b) :
    |(secs.map (extent g.orientation)).sum - (thickness g.orientation g.dims +
        if g.orientation = .overlapping then
          (match c.insulation b a with
            | some d => d.1
            | none => 0)
        else 0)| ≤ (pattern.length * reps : Nat) * (1 / (2 * 10 ^ 9)) := by
  obtain ⟨plan, x, hp, hx, rfl⟩ := rectangular_single h
  have := group_extent (multi := false) ho hreps hfirst hlast hp hx
  have hg : groupProp false g prop = prop := by funext w; simp [groupProp]
  have hpat : groupPattern g pattern false = pattern := rfl
  rw [hg, hpat, hsum, mul_one] at this
  convert this using 5
  rename_i hov
  unfold between
  rw [hov]
  cases c.insulation b a <;> simp [thickness]

/-- C67: with insulation between the last winding and the first, overlapping sections stick out of the
window by its thickness. -/
theorem sections_overflow_window :
    (windRectangularSections sample (some [sampleGroup]) (fun _ => 1/2) [0, 1] 3).returns fun secs =>
      (secs.map (extent .overlapping)).sum = sampleGroup.dims.1 + 1/10000 := by
  decide +kernel

/-- C67: a group with another orientation than the coil takes the other dimension of the insulation, and
the sections do not fill the window. -/
theorem sections_mixed_orientation :
    (windRectangularSections sample (some [{ sampleGroup with orientation := .contiguous }])
        (fun _ => 1/2) [0, 1] 1).returns fun secs =>
      (secs.map (extent .contiguous)).sum - sampleGroup.dims.2 = 199/10000 := by
  decide +kernel

end Verif.Winding
