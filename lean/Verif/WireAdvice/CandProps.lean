import Verif.WireAdvice.AdviceProps
import Mathlib.Algebra.Order.Field.Rat
import Mathlib.Data.Rat.Floor
import Mathlib.Tactic.NormNum

/-! # The candidates: which wires, with how many parallels

Theorems of C289 and C293, and the equations of the sizes used by C287. -/

set_option linter.unusedSectionVars false

namespace Verif.WireAdvice

open Verif.Scoring (Num)

variable {K : Type} [Field K] [LinearOrder K] [IsStrictOrderedRing K]

/-! ## Sizes -/

/-- **C287.** The area of a section: width by height, unless it is in polar coordinates, when it is what the angle (in degrees) cuts
of a circle whose radius is the first dimension. -/
theorem sectionArea_eq (pi : K) (sec : Section K) :
    (sec.coord ≠ some .polar → sectionArea pi sec = sec.first * sec.second) ∧
    (sec.coord = some .polar → sectionArea pi sec * 360 = pi * sec.first ^ 2 * sec.second) := by
  unfold sectionArea
  constructor
  · intro h; rw [if_pos ((cartesian_or _).mpr h)]
  · intro h
    rw [if_neg (by rw [cartesian_or]; exact fun h' => h' h)]
    field_simp

/-- **C287.** The sizes of a wire: the outer ones, or those of the conductor without them; a wire that is not round nor litz has no height
if it has neither. -/
theorem sizes_eq (w : Wire K) (a b : K) : Sizes w a b ↔
    (w.type = .round ∧ a = b ∧ (w.outerDiameter = some a ∨ (w.outerDiameter = none ∧ w.diameter = some a))) ∨
    (w.type = .litz ∧ a = b ∧ (w.outerDiameter = some a ∨ (w.outerDiameter = none ∧ w.envelope = some a))) ∨
    ((w.type = .rectangular ∨ w.type = .foil ∨ w.type = .planar) ∧
      (w.outerWidth = some a ∨ (w.outerWidth = none ∧ w.width = some a)) ∧
      (w.outerHeight = some b ∨ (w.outerHeight = none ∧ w.height = some b) ∨ (w.outerHeight = none ∧ w.height = none ∧ b = 0))) := by
  unfold Sizes maxWidth maxHeight
  cases w.type <;> cases w.outerDiameter <;> cases w.outerWidth <;> cases w.outerHeight <;> cases w.diameter <;> cases w.envelope <;>
    cases w.width <;> cases w.height <;> simp <;> try tauto
  all_goals first
    | (intro h; exact eq_comm)
    | (constructor <;> rintro ⟨rfl, rfl⟩ <;> simp)

/-- **C287.** What ties are broken by: the outer diameter, or the sum of the outer sizes without it. -/
theorem metric_eq (c : Cand K) : (∀ d, c.wire.outerDiameter = some d → metric c = some d) ∧
    (∀ w h, c.wire.outerDiameter = none → c.wire.outerWidth = some w → c.wire.outerHeight = some h → metric c = some (w + h)) ∧
    (∀ w, c.wire.outerDiameter = none → c.wire.outerWidth = some w → c.wire.outerHeight = none → metric c = some w) ∧
    (∀ h, c.wire.outerDiameter = none → c.wire.outerWidth = none → c.wire.outerHeight = some h → metric c = some h) ∧
    (c.wire.outerDiameter = none → c.wire.outerWidth = none → c.wire.outerHeight = none → metric c = none) := by
  unfold metric
  refine ⟨?_, ?_, ?_, ?_, ?_⟩ <;> intros <;> simp_all

/-- **C287.** The smallest dimension of the conductor: the diameter (of a strand, in a litz wire), the width of a foil, the height of
the other wires. -/
theorem smallest_eq (w : Wire K) : (w.type = .round ∨ w.type = .litz → smallest w = w.diameter) ∧
    (w.type = .foil → smallest w = w.width) ∧ (w.type = .rectangular ∨ w.type = .planar → smallest w = w.height) := by
  unfold smallest
  refine ⟨?_, ?_, ?_⟩
  · rintro (h | h) <;> simp [h]
  · intro h; simp [h]
  · rintro (h | h) <;> simp [h]

/-! ## Which candidates -/

/-- The type of the wire is among the allowed ones; rectangular wires also need a section in cartesian coordinates, unless they
are allowed in toroids. -/
def TypeAllowed (s : Allowed) (sec : Section K) : WType → Prop
  | .foil => s.foil = true
  | .planar => s.planar = true
  | .litz => s.litz = true
  | .round => s.round = true
  | .rectangular => s.rectangular = true ∧ (s.rectangularInToroid = true ∨ sec.coord = some .cartesian)

theorem excluded_iff (s : Allowed) (sec : Section K) (t : WType) : excluded s sec t = false ↔ TypeAllowed s sec t := by
  unfold excluded TypeAllowed rectangularAllowed
  cases t <;> simp
  cases s.rectangularInToroid <;> simp

theorem included_iff (s : Allowed) (sec : Section K) (t : WType) : included s sec t = true ↔ TypeAllowed s sec t := by
  unfold included TypeAllowed rectangularAllowed
  cases t <;> simp

/-- The wire as it is used: a foil as high as 95 % of the section, a planar wire as wide as 95 % of it. -/
def UsedAs (sec : Section K) (w u : Wire K) : Prop :=
  u.type = w.type ∧ u.name = w.name ∧ u.conductors = w.conductors ∧ u.diameter = w.diameter ∧ u.outerDiameter = w.outerDiameter ∧
  (w.type = .foil → u.height = some (95 / 100 * sec.second) ∧ u.outerHeight = u.height ∧ u.width = w.width ∧ u.outerWidth = w.width) ∧
  (w.type = .planar → u.width = some (95 / 100 * sec.first) ∧ u.outerWidth = u.width ∧ u.height = w.height ∧ u.outerHeight = w.height) ∧
  (w.type ≠ .foil → w.type ≠ .planar →
    u.height = w.height ∧ u.width = w.width ∧ u.outerHeight = w.outerHeight ∧ u.outerWidth = w.outerWidth ∧ u.envelope = w.envelope)

/-- The least number of parallels that carry the current with the density. -/
def LeastParallels (density : K) (rms area : K) (n : ℤ) : Prop :=
  rms ≤ n * density * area ∧ ∀ m : ℤ, rms ≤ m * density * area → n ≤ m

theorem used_cut (sec : Section K) (w : Wire K) : UsedAs sec w (cut sec w) := by
  unfold UsedAs cut
  cases ht : w.type <;> simp [ht] <;> ring

theorem used_asked {sec : Section K} {w u : Wire K} (c : Current K) (h : UsedAs sec w u) : UsedAs sec w (asked c u) := by
  unfold asked
  split <;> exact h

/-- What is needed of the current: it is processed, with frequency and root mean square. -/
def HasData (c : Current K) (f rms : K) : Prop := ∃ p, c.processed = some p ∧ p.frequency = some f ∧ p.rms = some rms

/-- **C289.** The number of parallels of a wire is the least with which the current has no more than the density. -/
theorem needed_least [FloorRing K] {e : Env K} {density : K} {c : Current K} {w : Wire K} {n : ℤ} (h : needed e density c w = .ok n) :
    ∃ f rms a, HasData c f rms ∧ e.area w f = some a ∧ a ≠ 0 ∧ density ≠ 0 ∧ (0 < a → 0 < density → LeastParallels density rms a n) := by
  unfold needed at h
  cases hp : c.processed with
  | none => rw [hp] at h; simp at h
  | some p =>
    rw [hp] at h
    obtain ⟨fo, ro⟩ := p
    cases fo with
    | none => simp at h
    | some f => cases ro with
      | none => simp at h
      | some rms =>
        simp only at h
        obtain ⟨a, ha, h⟩ := bind_ok.mp h
        rw [orThrow_ok] at ha
        by_cases h0 : a = 0 ∨ density = 0
        · rw [if_pos h0] at h; simp at h
        · rw [if_neg h0] at h
          unfold toInt at h
          split_ifs at h
          simp only [Res.ok.injEq] at h
          refine ⟨f, rms, a, ⟨⟨some f, some rms⟩, hp, rfl, rfl⟩, ha, fun h1 => h0 (Or.inl h1), fun h1 => h0 (Or.inr h1), fun hA hD => ?_⟩
          have key : ∀ m : ℤ, rms ≤ m * density * a ↔ n ≤ m := by
            intro m
            rw [← h, Int.ceil_le, div_div, div_le_iff₀ (mul_pos hA hD)]
            constructor <;> intro h1 <;> linarith
          exact ⟨(key n).mpr le_rfl, fun m hm => (key m).mp hm⟩

/-- A candidate made of a wire. -/
def Offered [FloorRing K] (s : Allowed) (cfg : Config K) (e : Env K) (sec : Section K) (cur : Current K) (w : Wire K) (c : Cand K) : Prop :=
  TypeAllowed s sec w.type ∧ UsedAs sec w c.wire ∧
  ((w.type = .rectangular ∧ c.wire = w ∧ (c.parallels = 1 ∨ (c.parallels = 2 ∧ 1 < cfg.maxParallels))) ∨
   (w.type ≠ .rectangular ∧ ∃ n, needed e cfg.density cur (cut sec w) = .ok n ∧ n ≤ cfg.maxParallels ∧ c.wire = asked cur (cut sec w) ∧
    (c.parallels = n ∨ (c.parallels = n + 1 ∧ n < cfg.maxParallels))))

theorem mem_pair {m : ℤ} {w : Wire K} {n : ℤ} {c : Cand K} :
    c ∈ pair m w n ↔ c.wire = w ∧ (c.parallels = n ∨ (c.parallels = n + 1 ∧ n < m)) := by
  obtain ⟨cw, cp⟩ := c
  unfold pair
  split_ifs with h <;> simp [h]
  tauto

theorem offer_mem [FloorRing K] {s : Allowed} {cfg : Config K} {e : Env K} {sec : Section K} {cur : Current K} {w : Wire K} {l : List (Cand K)}
    (h : offer s cfg e sec cur w = .ok l) (c : Cand K) : c ∈ l ↔ Offered s cfg e sec cur w c := by
  unfold offer at h
  unfold Offered
  rw [← excluded_iff]
  by_cases hx : excluded s sec w.type = true
  · rw [if_pos hx] at h
    simp only [Res.ok.injEq] at h
    subst h
    simp [hx]
  · rw [if_neg hx] at h
    rw [Bool.not_eq_true] at hx
    by_cases hr : w.type = .rectangular
    · rw [if_pos hr] at h
      simp only [Res.ok.injEq] at h
      subst h
      rw [mem_pair]
      have hu : c.wire = w → UsedAs sec w c.wire := by
        intro hc
        rw [hc]
        simp [UsedAs, hr]
      constructor
      · rintro ⟨h1, h2⟩; exact ⟨hx, hu h1, Or.inl ⟨hr, h1, by simpa using h2⟩⟩
      · rintro ⟨_, _, ⟨_, h1, h2⟩ | ⟨h1, _⟩⟩
        · exact ⟨h1, by simpa using h2⟩
        · exact absurd hr h1
    · rw [if_neg hr] at h
      obtain ⟨n, hn, h⟩ := bind_ok.mp h
      simp only [hx, hr, true_and, ne_eq, not_false_eq_true, false_and, false_or]
      by_cases hm : cfg.maxParallels < n
      · rw [if_pos hm] at h
        simp only [Res.ok.injEq] at h
        subst h
        simp only [List.not_mem_nil, false_iff]
        rintro ⟨_, n', h1, h2, _⟩
        rw [hn] at h1
        simp only [Res.ok.injEq] at h1
        omega
      · rw [if_neg hm] at h
        simp only [Res.ok.injEq] at h
        subst h
        rw [mem_pair]
        constructor
        · rintro ⟨h1, h2⟩
          exact ⟨h1 ▸ used_asked cur (used_cut sec w), n, hn, by omega, h1, h2⟩
        · rintro ⟨_, n', h1, _, h2, h3⟩
          rw [hn] at h1
          simp only [Res.ok.injEq] at h1
          subst h1
          exact ⟨h2, h3⟩

/-- **C287.** The candidates are those the wires offer: every wire of an allowed type, with the number of parallels it needs if there
may be as many, and with one more if there may be more. -/
theorem dataset_mem [FloorRing K] {s : Allowed} {cfg : Config K} {e : Env K} {sec : Section K} {cur : Current K} :
    ∀ {ws : List (Wire K)} {d : List (Cand K)}, dataset s cfg e sec cur ws = .ok d → ∀ c, c ∈ d ↔ ∃ w ∈ ws, Offered s cfg e sec cur w c
  | [], d, h, c => by
    simp only [dataset, Res.ok.injEq] at h
    subst h; simp
  | w :: ws, d, h, c => by
    simp only [dataset] at h
    obtain ⟨a, h1, h⟩ := bind_ok.mp h
    obtain ⟨b, h2, h⟩ := bind_ok.mp h
    simp only [Res.ok.injEq] at h
    subst h
    rw [List.mem_append, offer_mem h1, dataset_mem h2]
    simp

/-- **C287.** A winding that is advised: made of one of the wires, acceptable, with a score. -/
theorem advised_offered [FloorRing K] {s : Allowed} {cfg : Config K} {e : Env K} {sec : Section K} {cur : Current K} {q : Asked} {maximum : ℕ}
    {wires : List (Wire K)} {r : List (Cand K × K)} {p : K} (hq : q.sections ≠ 0) (hs : Sound e sec)
    (h : advise s cfg e sec cur q maximum wires = .ok (r, p)) :
    r.length ≤ maximum ∧ ∀ x ∈ r, (∃ w ∈ wires, Offered s cfg e sec cur w x.1) ∧ Alone cfg e sec q.turns x.1 ∧ Insulated cfg e x.1 ∧
      Almost e sec q x.1 := by
  classical
  obtain ⟨d, full, f, m, hd, _, hr, _, hperm, _, _⟩ := ranking hq hs h
  refine ⟨by rw [hr]; exact List.length_take_le _ _, fun x hx => ?_⟩
  rw [hr] at hx
  obtain ⟨a, b⟩ := List.mem_filter.mp (hperm.mem_iff.mp (List.mem_map_of_mem (List.mem_of_mem_take hx)))
  have hb : Acceptable cfg e sec q d x.1 := by simpa using b
  refine ⟨(dataset_mem hd x.1).mp a, hb.1, hb.2.1, ?_⟩
  by_cases hS : SomeFit cfg e sec q d
  · obtain ⟨t, h1, h2⟩ := hb.2.2.1 hS
    exact ⟨t, h1, by linarith⟩
  · exact hb.2.2.2 hS

/-- **C287.** Nothing acceptable is left out unless there are as many better as were asked for. -/
theorem advised_complete [FloorRing K] {s : Allowed} {cfg : Config K} {e : Env K} {sec : Section K} {cur : Current K} {q : Asked} {maximum : ℕ}
    {wires : List (Wire K)} {r : List (Cand K × K)} {p : K} (hq : q.sections ≠ 0) (hs : Sound e sec)
    (h : advise s cfg e sec cur q maximum wires = .ok (r, p)) (hl : r.length < maximum) {w : Wire K} (hw : w ∈ wires) {c : Cand K}
    (ho : Offered s cfg e sec cur w c) (h1 : Alone cfg e sec q.turns c) (h2 : Insulated cfg e c) (h3 : Fits e sec q c) : ∃ t, (c, t) ∈ r := by
  classical
  obtain ⟨d, full, f, m, hd, _, hr, _, hperm, _, _⟩ := ranking hq hs h
  have hfull : r = full := by
    rw [hr] at hl ⊢
    rw [List.length_take] at hl
    exact List.take_of_length_le (by omega)
  have hc : c ∈ d := (dataset_mem hd c).mpr ⟨w, hw, ho⟩
  have hS : SomeFit cfg e sec q d := ⟨c, hc, h1, h2, h3⟩
  have : c ∈ full.map Prod.fst := hperm.mem_iff.mpr (List.mem_filter.mpr ⟨hc, by
    simp only [decide_eq_true_eq]
    exact ⟨h1, h2, fun _ => h3, fun h4 => absurd hS h4⟩⟩)
  obtain ⟨x, hx, rfl⟩ := List.mem_map.mp this
  exact ⟨x.2, hfull ▸ hx⟩

/-- **C287.** Scores go down along the advice. -/
theorem advised_sorted [FloorRing K] {s : Allowed} {cfg : Config K} {e : Env K} {sec : Section K} {cur : Current K} {q : Asked} {maximum : ℕ}
    {wires : List (Wire K)} {r : List (Cand K × K)} {p : K} (hq : q.sections ≠ 0) (hs : Sound e sec)
    (h : advise s cfg e sec cur q maximum wires = .ok (r, p)) : r.Pairwise (fun a b => b.2 ≤ a.2) := by
  obtain ⟨d, full, f, m, _, _, hr, ho, _, _, _⟩ := ranking hq hs h
  rw [hr]
  refine (ho.sublist (List.take_sublist _ _)).imp ?_
  rintro a b (h1 | ⟨h1, _⟩)
  · exact h1.le
  · exact h1.symm.le

/-- **C287.** Without sections nothing is advised. -/
theorem no_sections [FloorRing K] {s : Allowed} {cfg : Config K} {e : Env K} {sec : Section K} {cur : Current K} {q : Asked} {maximum : ℕ}
    {wires : List (Wire K)} {r : List (Cand K × K)} {p : K} (hq : q.sections = 0)
    (h : advise s cfg e sec cur q maximum wires = .ok (r, p)) : r = [] ∧ p = 0 := by
  unfold advise at h
  obtain ⟨d, hd, h⟩ := bind_ok.mp h
  obtain ⟨l₁, h1, h⟩ := bind_ok.mp h
  obtain ⟨l₂, h2, h⟩ := bind_ok.mp h
  obtain ⟨l₃, h3, h⟩ := bind_ok.mp h
  obtain ⟨l₄, h4, h⟩ := bind_ok.mp h
  have hnone : ∀ (b : Bool) (out : List (Cand K × K)), step false (withParallels e sec q b) l₂ = .ok out → out = [] := by
    intro b out hb
    apply List.eq_nil_iff_forall_not_mem.mpr
    intro x hx
    have := (step_answers hb).2 x hx
    generalize raw (withParallels e sec q b) x.1 = v at this
    unfold withParallels at this
    by_cases h0 : x.1.wire.hasArea = false
    · rw [if_pos h0] at this; simp at this
    · rw [if_neg h0] at this
      obtain ⟨w, _, this⟩ := bind_ok.mp this
      obtain ⟨y, _, this⟩ := bind_ok.mp this
      rw [if_pos hq] at this
      simp at this
  have e3 : l₃ = [] := by
    unfold fitting at h3
    obtain ⟨fit, h5, h6⟩ := bind_ok.mp h3
    split_ifs at h6
    · exact hnone _ _ h6
    · simp only [Res.ok.injEq] at h6
      rw [← h6]; exact hnone _ _ h5
  subst e3
  obtain ⟨f, _, c4, _⟩ := scored_spec h4 (σ := fun _ => 0) (by simp)
  have e4 : l₄ = [] := by simpa using c4
  subst e4
  simp only [finish, breakTies, List.insertionSort_nil, List.take_nil, proportions, ok_bind, Res.ok.injEq, Prod.mk.injEq] at h
  exact ⟨h.1.symm, h.2.symm⟩

/-! ## The density of the current -/

/-- **C289.** The number of parallels of an advised wire that is not rectangular keeps the current within the density, and at most one
of the parallels is more than needed. -/
theorem advised_density_partial [FloorRing K] {s : Allowed} {cfg : Config K} {e : Env K} {sec : Section K} {cur : Current K} {q : Asked} {maximum : ℕ}
    {wires : List (Wire K)} {r : List (Cand K × K)} {p f rms : K} (hq : q.sections ≠ 0) (hs : Sound e sec)
    (h : advise s cfg e sec cur q maximum wires = .ok (r, p)) (hd : 0 < cfg.density) (hcur : HasData cur f rms) {x : Cand K × K} (hx : x ∈ r)
    (ht : x.1.wire.type ≠ .rectangular) : ∃ w ∈ wires, ∃ u : Wire K, UsedAs sec w u ∧ UsedAs sec w x.1.wire ∧ ∃ a, e.area u f = some a ∧
      (0 < a → rms ≤ x.1.parallels * cfg.density * a ∧ (∀ m : ℤ, rms ≤ m * cfg.density * a → x.1.parallels ≤ m + 1)) ∧
      x.1.parallels ≤ cfg.maxParallels := by
  obtain ⟨⟨w, hw, h1, h2, h3⟩, _⟩ := (advised_offered hq hs h).2 x hx
  refine ⟨w, hw, cut sec w, used_cut sec w, h2, ?_⟩
  rcases h3 with ⟨h3, _⟩ | ⟨_, n, h4, h5, h6, h7⟩
  · exact absurd (h2.1.trans h3) ht
  · obtain ⟨f', rms', a, ⟨pr, e1, e2, e3⟩, ha, _, _, hl⟩ := needed_least h4
    obtain ⟨pr', e1', e2', e3'⟩ := hcur
    rw [e1] at e1'
    simp only [Option.some.injEq] at e1'
    subst e1'
    rw [e2] at e2'; rw [e3] at e3'
    simp only [Option.some.injEq] at e2' e3'
    subst e2'; subst e3'
    refine ⟨a, ha, fun hA => ?_, by omega⟩
    obtain ⟨l1, l2⟩ := hl hA hd
    have hpos := mul_pos hd hA
    constructor
    · have : (n : K) ≤ x.1.parallels := by
        rcases h7 with h7 | ⟨h7, _⟩ <;> rw [h7]
        push_cast; linarith
      nlinarith
    · intro m hm
      have := l2 m hm
      omega

/-! ## Which wires of the database -/

/-- **C293.** A wire has another standard than the common one only if both are there. -/
theorem sameStandard_iff (common : Option Nat) (w : Wire K) :
    sameStandard common w = true ↔ ∀ a b, common = some a → w.standard = some b → b = a := by
  unfold sameStandard
  cases common <;> cases w.standard <;> simp

/-- **C293.** The wires looked at without a constraint of the type are those of allowed types and the common standard. -/
theorem fromDatabase_mem (s : Allowed) (sec : Section K) (common : Option Nat) (db : List (Wire K)) (w : Wire K) :
    w ∈ fromDatabase s sec common db ↔ w ∈ db ∧ TypeAllowed s sec w.type ∧ ∀ a b, common = some a → w.standard = some b → b = a := by
  unfold fromDatabase
  rw [List.mem_filter, Bool.and_eq_true, included_iff, sameStandard_iff]

theorem dataset_allowed [FloorRing K] (s : Allowed) (cfg : Config K) (e : Env K) (sec : Section K) (cur : Current K) (ws : List (Wire K)) :
    dataset s cfg e sec cur ws = dataset s cfg e sec cur (ws.filter fun w => included s sec w.type) := by
  induction ws with
  | nil => rfl
  | cons w ws ih =>
    by_cases hw : included s sec w.type = true
    · rw [List.filter_cons_of_pos (by exact hw)]
      simp only [dataset]
      rw [ih]
    · rw [List.filter_cons_of_neg (by exact hw), ← ih]
      have hx : excluded s sec w.type = true := by
        by_contra hx
        rw [Bool.not_eq_true] at hx
        exact hw ((included_iff s sec w.type).mpr ((excluded_iff s sec w.type).mp hx))
      simp only [dataset, offer]
      rw [if_pos hx, ok_bind]
      cases dataset s cfg e sec cur ws <;> rfl

/-- **C293.** A constraint of the type of wire gives the advice over a database of the accepted types: the settings still leave out
theirs. -/
theorem constraint_eq [FloorRing K] (s : Allowed) (cfg : Config K) (e : Env K) (sec : Section K) (cur : Current K) (q : Asked) (maximum : ℕ)
    (accepts : WType → Bool) (db : List (Wire K)) : adviseFrom s cfg e sec cur q maximum (some accepts) db =
      adviseFrom s cfg e sec cur q maximum none (db.filter fun w => accepts w.type) := by
  have key : dataset s cfg e sec cur (constrained accepts cfg.common db) =
      dataset s cfg e sec cur (fromDatabase s sec cfg.common (db.filter fun w => accepts w.type)) := by
    rw [dataset_allowed]
    congr 1
    unfold constrained fromDatabase
    rw [List.filter_filter, List.filter_filter]
    refine List.filter_congr fun w _ => ?_
    cases included s sec w.type <;> cases accepts w.type <;> cases sameStandard cfg.common w <;> rfl
  unfold adviseFrom advise
  simp only
  rw [key]

/-- **C293.** Of the database only wires of allowed and accepted types, and of the common standard, are advised. -/
theorem advised_from [FloorRing K] {s : Allowed} {cfg : Config K} {e : Env K} {sec : Section K} {cur : Current K} {q : Asked} {maximum : ℕ}
    {types : Option (WType → Bool)} {db : List (Wire K)} {r : List (Cand K × K)} {p : K} (hq : q.sections ≠ 0) (hs : Sound e sec)
    (h : adviseFrom s cfg e sec cur q maximum types db = .ok (r, p)) : ∀ x ∈ r, ∃ w ∈ db, UsedAs sec w x.1.wire ∧
      TypeAllowed s sec x.1.wire.type ∧ (∀ f, types = some f → f x.1.wire.type = true) ∧ ∀ a b, cfg.common = some a → w.standard = some b → b = a := by
  intro x hx
  unfold adviseFrom at h
  obtain ⟨⟨w, hw, h1, h2, _⟩, _⟩ := (advised_offered hq hs h).2 x hx
  rw [← h2.1] at h1
  cases types with
  | none =>
    obtain ⟨h3, _, h4⟩ := (fromDatabase_mem s sec cfg.common db w).mp hw
    exact ⟨w, h3, h2, h1, by simp, h4⟩
  | some f =>
    unfold constrained at hw
    rw [List.mem_filter, Bool.and_eq_true, sameStandard_iff] at hw
    refine ⟨w, hw.1, h2, h1, ?_, hw.2.2⟩
    intro g hg
    simp only [Option.some.injEq] at hg
    subst hg
    rw [h2.1]; exact hw.2.1

end Verif.WireAdvice
