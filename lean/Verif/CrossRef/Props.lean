import Verif.CrossRef.Lemmas
import Verif.Scoring.Props
import Mathlib.Algebra.Order.Archimedean.Basic
import Mathlib.Algebra.Order.Ring.Rat
import Mathlib.Algebra.Field.Rat
import Mathlib.Tactic.NormNum
import Mathlib.Tactic.FieldSimp
import Mathlib.Tactic.Ring

/-! # Properties of the core cross-referencer (C15, C49) -/

set_option linter.unusedSimpArgs false
set_option linter.unusedSectionVars false

namespace Verif.CrossRef

open Verif.Scoring (Num)

variable {K : Type} [Field K] [LinearOrder K] [IsStrictOrderedRing K]

/-! ## Specification -/

/-- Relative difference to a reference value below a limit. -/
def Near (ref x limit : K) : Prop := |ref - x| < limit * ref

/-- A core is close enough to the reference in every quantity that has a positive weight. -/
structure Meets (ref : Core K) (w : Filter → K) (limit : K) (c : Core K) : Prop where
  permeance : 0 < w .permeance → Near ref.permeance c.permeance limit
  windowArea : 0 < w .windowArea → Near ref.windowArea c.windowArea limit
  effectiveArea : 0 < w .effectiveArea → Near ref.effectiveArea c.effectiveArea limit
  size : 0 < w .envelopingVolume → Near ref.depth c.depth limit ∧ Near ref.height c.height limit ∧
    Near ref.width c.width limit
  /-- the losses are known, the core does not saturate, and the losses are near (from limit one on they may be
  anything) -/
  losses : 0 < w .coreLosses → ∀ r p, ref.losses = some (r, p) →
    ∃ l peak, c.losses = some (l, peak) ∧ peak < c.bsat ∧ (1 ≤ limit ∨ Near r l limit)

/-- The quantities of a physical reference core. -/
structure Physical (ref : Core K) : Prop where
  permeance : 0 < ref.permeance
  windowArea : 0 < ref.windowArea
  effectiveArea : 0 < ref.effectiveArea
  depth : 0 < ref.depth
  height : 0 < ref.height
  width : 0 < ref.width
  losses : ∀ r p, ref.losses = some (r, p) → 0 < r

/-- What the options and the reference ask of a candidate. -/
structure Admissible (o : Options K) (ref c : Core K) : Prop where
  notReference : ¬ (c.shape = ref.shape ∧ c.material = ref.material)
  manufacturer : ∀ x, o.onlyManufacturer = some x → c.manufacturer = x
  material : o.onlyReferenceMaterial = true → c.material = ref.material
  fits : o.fits c = true

/-! ## Model against specification -/

theorem within_iff {ref x limit : K} (h : 0 < ref) : within ref x limit = true ↔ Near ref x limit := by
  simp only [within, Near, decide_eq_true_eq]
  rw [div_lt_iff₀ h]
  exact ⟨fun h => h.2, fun hh => ⟨ne_of_gt h, hh⟩⟩

theorem accepted_meets {ref : Core K} (hp : Physical ref) (w : Filter → K) (limit : K) (c : Core K)
    (h : accepted ref w limit c = true) : Meets ref w limit c := by
  simp only [accepted, Bool.and_eq_true, Bool.or_eq_true, decide_eq_true_eq] at h
  obtain ⟨⟨⟨⟨h1, h2⟩, h3⟩, h4⟩, h5⟩ := h
  constructor
  · intro hw
    have := h1.resolve_left (not_le.mpr hw)
    simp only [judge] at this
    by_cases hh : within ref.permeance c.permeance limit = true
    · exact (within_iff hp.permeance).mp hh
    · simp [hh] at this
  · intro hw
    have := h2.resolve_left (not_le.mpr hw)
    simp only [judge] at this
    by_cases hh : within ref.windowArea c.windowArea limit = true
    · exact (within_iff hp.windowArea).mp hh
    · simp [hh] at this
  · intro hw
    have := h4.resolve_left (not_le.mpr hw)
    simp only [judge] at this
    by_cases hh : within ref.effectiveArea c.effectiveArea limit = true
    · exact (within_iff hp.effectiveArea).mp hh
    · simp [hh] at this
  · intro hw
    have hne : ¬ (w .envelopingVolume ≤ 0 ∨ (ref.depth ≤ 0 ∨ ref.height ≤ 0 ∨ ref.width ≤ 0)) := by
      rintro (h | h | h | h)
      exacts [absurd h (not_le.mpr hw), absurd h (not_le.mpr hp.depth), absurd h (not_le.mpr hp.height),
        absurd h (not_le.mpr hp.width)]
    have := h3.resolve_left hne
    simp only [judge] at this
    by_cases hh : (within ref.depth c.depth limit && within ref.height c.height limit &&
        within ref.width c.width limit) = true
    · simp only [Bool.and_eq_true] at hh
      exact ⟨(within_iff hp.depth).mp hh.1.1, (within_iff hp.height).mp hh.1.2, (within_iff hp.width).mp hh.2⟩
    · rw [if_neg hh] at this; simp at this
  · intro hw r p hr
    have := h5.resolve_left (by rintro (h | h); exacts [absurd h (not_le.mpr hw), by rw [hr] at h; simp at h])
    simp only [judge, hr] at this
    cases hc : c.losses with
    | none => rw [hc] at this; simp at this
    | some q =>
      obtain ⟨l, peak⟩ := q
      rw [hc] at this
      simp only at this
      by_cases hh : peak < c.bsat ∧ (within r l limit = true ∨ 1 ≤ limit)
      · exact ⟨l, peak, rfl, hh.1, hh.2.elim (fun h => Or.inr ((within_iff (hp.losses r p hr)).mp h)) Or.inl⟩
      · rw [if_neg hh] at this; simp at this

theorem meets_accepted {ref : Core K} (hp : Physical ref) (w : Filter → K) (limit : K) (c : Core K)
    (h : Meets ref w limit c) : accepted ref w limit c = true := by
  have or_of : ∀ {x : K} {b : Bool}, (0 < x → b = true) → (decide (x ≤ 0) || b) = true := by
    intro x b hb
    by_cases hx : 0 < x
    · rw [hb hx, Bool.or_true]
    · rw [decide_eq_true (not_lt.mp hx), Bool.true_or]
  simp only [accepted, Bool.and_eq_true]
  refine ⟨⟨⟨⟨?_, ?_⟩, ?_⟩, ?_⟩, ?_⟩
  · refine or_of (fun hw => ?_)
    rw [judge, if_pos ((within_iff hp.permeance).mpr (h.permeance hw))]; rfl
  · refine or_of (fun hw => ?_)
    rw [judge, if_pos ((within_iff hp.windowArea).mpr (h.windowArea hw))]; rfl
  · by_cases hw : 0 < w .envelopingVolume
    · obtain ⟨s1, s2, s3⟩ := h.size hw
      rw [judge, if_pos (by simp only [(within_iff hp.depth).mpr s1, (within_iff hp.height).mpr s2,
        (within_iff hp.width).mpr s3, Bool.and_self])]
      simp
    · simp [not_lt.mp hw]
  · refine or_of (fun hw => ?_)
    rw [judge, if_pos ((within_iff hp.effectiveArea).mpr (h.effectiveArea hw))]; rfl
  · by_cases hw : 0 < w .coreLosses
    · cases hr : ref.losses with
      | none => simp
      | some rp =>
        obtain ⟨r, p⟩ := rp
        obtain ⟨l, peak, e, hb, hn⟩ := h.losses hw r p hr
        have hj : (judge ref limit .coreLosses c).isSome = true := by
          rw [judge, hr, e]
          simp only
          rw [if_pos ⟨hb, hn.elim Or.inr (fun hh => Or.inl ((within_iff (hp.losses r p hr)).mpr hh))⟩]
          rfl
        rw [hj, Bool.or_true]
    · simp [not_lt.mp hw]

theorem candidates_admissible (o : Options K) (ref : Core K) (catalogue : List (Core K)) :
    (∀ p ∈ candidates o ref catalogue, p.1 ∈ catalogue ∧ Admissible o ref p.1) ∧
    ((candidates o ref catalogue).map Prod.fst).Sublist catalogue ∧
    (candidates o ref catalogue).Pairwise (fun a b => b.2 ≤ a.2) ∧
    ∀ c ∈ catalogue, Admissible o ref c → (c, 0) ∈ candidates o ref catalogue := by
  refine ⟨?_, ?_, ?_, ?_⟩
  · intro p hp
    simp only [candidates, List.mem_map, List.mem_filter] at hp
    obtain ⟨c, ⟨hc, hh⟩, rfl⟩ := hp
    simp only [Bool.and_eq_true, Bool.or_eq_true, decide_eq_true_eq, Bool.not_eq_true'] at hh
    obtain ⟨⟨⟨h1, h2⟩, h3⟩, h4⟩ := hh
    refine ⟨hc, ?_, ?_, ?_, h4⟩
    · rintro ⟨e1, e2⟩
      exact h1.elim (fun h => h e1.symm) (fun h => h e2.symm)
    · intro x hx
      rw [hx] at h2
      simpa using h2
    · intro ht
      rcases h3 with h | h
      · rw [ht] at h; simp at h
      · exact h.symm
  · simp only [candidates, List.map_map]
    have e : ∀ l : List (Core K), l.map (Prod.fst ∘ fun c => (c, (0 : K))) = l := fun l => List.map_id l
    rw [e]
    exact List.filter_sublist
  · simp only [candidates]
    rw [List.pairwise_map]
    exact List.pairwise_of_forall (fun _ _ => le_refl _)
  · intro c hc ha
    simp only [candidates, List.mem_map, List.mem_filter]
    refine ⟨c, ⟨hc, ?_⟩, rfl⟩
    simp only [Bool.and_eq_true, Bool.or_eq_true, decide_eq_true_eq, Bool.not_eq_true']
    refine ⟨⟨⟨?_, ?_⟩, ?_⟩, ha.fits⟩
    · by_contra hh
      push Not at hh
      exact ha.notReference ⟨hh.1.symm, hh.2.symm⟩
    · cases hm : o.onlyManufacturer with
      | none => rfl
      | some x => simpa using ha.manufacturer x hm
    · cases ht : o.onlyReferenceMaterial with
      | false => left; rfl
      | true => right; exact (ha.material ht).symm

/-! ## C15: one call on a new object -/

/-- The limits tried, one after the other. -/
def limitAt (k : Nat) : K := 1 / 4 * 2 ^ k

theorem limitAt_pos (k : Nat) : (1 / 4 : K) ≤ limitAt k := by
  unfold limitAt
  have : (1 : K) ≤ 2 ^ k := one_le_pow₀ (by norm_num)
  linarith

theorem nextLimit_zero : nextLimit (0 : K) = limitAt 0 := by
  simp [nextLimit, limitAt]

theorem nextLimit_at (k : Nat) : nextLimit (limitAt k : K) = limitAt (k + 1) := by
  have := limitAt_pos (K := K) k
  rw [nextLimit, if_neg (not_lt.mpr (le_trans (by norm_num) this))]
  simp only [limitAt, pow_succ]; ring

theorem limitAt_mono {j k : Nat} (h : j ≤ k) : (limitAt j : K) ≤ limitAt k := by
  unfold limitAt
  have : (2 : K) ^ j ≤ 2 ^ k := pow_le_pow_right₀ (by norm_num) h
  linarith

/-- What a finished search at limit number `k` says: the result is that of a new object at that limit, every smaller
limit was allowed and gave too few, and the search stopped because there were enough or the limit was exceeded. -/
structure StoppedAt (maxLimit : K) (n : Nat) (res : K → List (Core K × K)) (k : Nat) (out : List (Core K × K)) : Prop where
  result : out = res (limitAt k)
  stop : n ≤ out.length ∨ maxLimit < limitAt k
  earlier : ∀ j, j < k → limitAt j ≤ maxLimit ∧ (res (limitAt j)).length < n

theorem searchLoop_spec {cat : List (Core K)} (ref : Core K) (w : Filter → K) (n : Nat) (cores : List (Core K × K))
    (maxLimit : K) (res : K → List (Core K × K))
    (happly : ∀ limit m, Sound cat ref limit m →
      ∃ m', Sound cat ref limit m' ∧ applyFilters ref w n cores limit m = some (m', res limit)) :
    ∀ (fuel k : Nat) (m : Memo K) (L : K) (m' : Memo K) (out : List (Core K × K)),
      Sound cat ref (limitAt k) m → (∀ j, j < k → limitAt j ≤ maxLimit ∧ (res (limitAt j)).length < n) →
      searchLoop maxLimit n (applyFilters ref w n cores) fuel (limitAt k) m (res (limitAt k)) = some (L, m', out) →
      ∃ k', L = limitAt k' ∧ StoppedAt maxLimit n res k' out := by
  intro fuel
  induction fuel with
  | zero => intro k m L m' out _ _ h; simp [searchLoop] at h
  | succ fuel ih =>
    intro k m L m' out hm hk h
    simp only [searchLoop] at h
    by_cases hc : limitAt k ≤ maxLimit ∧ (res (limitAt k)).length < n
    · rw [if_pos hc, nextLimit_at] at h
      obtain ⟨m1, hm1, e1⟩ := happly (limitAt (k + 1)) m (sound_mono (limitAt_mono (Nat.le_succ k)) hm)
      rw [e1] at h
      simp only at h
      refine ih (k + 1) m1 L m' out hm1 ?_ h
      intro j hj
      rcases Nat.lt_succ_iff_lt_or_eq.mp hj with hj | rfl
      · exact hk j hj
      · exact hc
    · rw [if_neg hc] at h
      simp only [Option.some.injEq, Prod.mk.injEq] at h
      obtain ⟨rfl, rfl, rfl⟩ := h
      refine ⟨k, rfl, rfl, ?_, hk⟩
      by_cases h1 : limitAt k ≤ maxLimit
      · left; exact not_lt.mp (fun h2 => hc ⟨h1, h2⟩)
      · right; exact not_le.mp h1

/-- **C15**, partial (see `limit_exceeded` for what is missing: the configured limit itself is not respected): on a
new object, for every catalogue without repeated names, every physical reference, weights, options, and number of
results, the call returns at most that many cores of the catalogue, each at most as often as it is there, sorted by
descending score, none with both shape and material of the reference, all admissible, all closer than the last limit
used in everything that has a weight. That limit is the first of 0.25, 0.5, 1, 2... at which a new object finds
enough, or the first above the configured one; it is at most twice the configured limit, or 0.25. -/
theorem cross_reference_partial (o : Options K) (ref : Core K) (hp : Physical ref) (w : Filter → K) (n : Nat)
    (catalogue : List (Core K)) (hu : NamesUnique catalogue) (fuel : Nat) (L : K) (m' : Memo K)
    (out : List (Core K × K)) (h : crossReference o ref w n catalogue fuel Memo.empty = some (L, m', out)) :
    out.length ≤ n ∧ out.Pairwise (fun a b => b.2 ≤ a.2) ∧ (out.map Prod.fst).Subperm catalogue ∧
    (∀ p ∈ out, Admissible o ref p.1 ∧ Meets ref w L p.1) ∧
    ((out = [] ∧ (n = 0 ∨ o.limit < 0)) ∨
      ∃ (k : Nat) (res : K → List (Core K × K)), L = limitAt k ∧ L ≤ max (1 / 4) (2 * o.limit) ∧
        (∀ limit, ∃ m1, applyFilters ref w n (candidates o ref catalogue) limit Memo.empty = some (m1, res limit)) ∧
        StoppedAt o.limit n res k out) := by
  obtain ⟨hc1, hc2, hc3, _⟩ := candidates_admissible o ref catalogue
  have hcat : ∀ p ∈ candidates o ref catalogue, p.1 ∈ catalogue := fun p hp => (hc1 p hp).1
  choose res r1 r2 r3 r4 r5 _ using fun limit =>
    applyFilters_spec hu ref w n (candidates o ref catalogue) hcat hc3 limit
  unfold crossReference at h
  cases fuel with
  | zero => simp [searchLoop] at h
  | succ fuel =>
    simp only [searchLoop] at h
    by_cases hc : (0 : K) ≤ o.limit ∧ ([] : List (Core K × K)).length < n
    · rw [if_pos hc, nextLimit_zero] at h
      obtain ⟨m1, hm1, e1⟩ := r5 (limitAt 0) Memo.empty (sound_empty _ _ _)
      rw [e1] at h
      simp only at h
      obtain ⟨k, rfl, hst⟩ := searchLoop_spec ref w n (candidates o ref catalogue) o.limit res r5 fuel 0 m1 L m' out
        hm1 (by simp) h
      have hout := hst.result
      refine ⟨hout ▸ r1 _, hout ▸ r2 _, hout ▸ (r3 _).trans hc2.subperm, ?_, Or.inr ⟨k, res, rfl, ?_, ?_, hst⟩⟩
      · intro p hpo
        rw [hout] at hpo
        have : p.1 ∈ (candidates o ref catalogue).map Prod.fst :=
          (r3 (limitAt k)).subset (List.mem_map.mpr ⟨p, hpo, rfl⟩)
        obtain ⟨q, hq, he⟩ := List.mem_map.mp this
        exact ⟨he ▸ (hc1 q hq).2, accepted_meets hp w _ _ (r4 _ p hpo)⟩
      · cases k with
        | zero => exact le_trans (by simp [limitAt]) (le_max_left _ _)
        | succ k =>
          have := (hst.earlier k (Nat.lt_succ_self k)).1
          refine le_trans ?_ (le_max_right _ _)
          have e : (limitAt (k + 1) : K) = 2 * limitAt k := by simp only [limitAt, pow_succ]; ring
          rw [e]
          linarith
      · intro limit
        obtain ⟨m2, _, e2⟩ := r5 limit Memo.empty (sound_empty _ _ _)
        exact ⟨m2, e2⟩
    · rw [if_neg hc] at h
      simp only [Option.some.injEq, Prod.mk.injEq] at h
      obtain ⟨rfl, rfl, rfl⟩ := h
      refine ⟨by simp, List.Pairwise.nil, by simp, by simp, Or.inl ⟨rfl, ?_⟩⟩
      by_cases hn : n = 0
      · exact Or.inl hn
      · right
        by_contra hh
        exact hc ⟨not_lt.mp hh, by simpa using Nat.pos_of_ne_zero hn⟩

/-- **C15**: nothing suitable is left out. When the call returns fewer cores than asked for, and either losses have no
weight (or the reference has none) or there are at most 10 % more catalogue cores than results asked for, every
admissible core of the catalogue that is closer than the last limit used is among the results. -/
theorem nothing_missed (o : Options K) (hlim : 0 ≤ o.limit) (ref : Core K) (hp : Physical ref) (w : Filter → K) (n : Nat)
    (catalogue : List (Core K)) (hu : NamesUnique catalogue) (fuel : Nat) (L : K) (m' : Memo K)
    (out : List (Core K × K)) (h : crossReference o ref w n catalogue fuel Memo.empty = some (L, m', out))
    (hcase : (w .coreLosses ≤ 0 ∨ ref.losses = none) ∨ 10 * catalogue.length ≤ 11 * n) (hlt : out.length < n)
    (c : Core K) (hc : c ∈ catalogue) (ha : Admissible o ref c) (hm : Meets ref w L c) : c ∈ out.map Prod.fst := by
  obtain ⟨_, _, _, _, h5⟩ := cross_reference_partial o ref hp w n catalogue hu fuel L m' out h
  rcases h5 with ⟨_, h5 | h5⟩ | ⟨k, res, rfl, _, happ, hst⟩
  · omega
  · exact absurd hlim (not_le.mpr h5)
  · obtain ⟨hc1, hc2, hc3, hc4⟩ := candidates_admissible o ref catalogue
    obtain ⟨out', _, _, _, _, r5, r6⟩ := applyFilters_spec hu ref w n (candidates o ref catalogue)
      (fun p hp => (hc1 p hp).1) hc3 (limitAt k)
    obtain ⟨m1, e1⟩ := happ (limitAt k)
    obtain ⟨m2, _, e2⟩ := r5 Memo.empty (sound_empty _ _ _)
    rw [e1] at e2
    simp only [Option.some.injEq, Prod.mk.injEq] at e2
    have hout : out = out' := hst.result.trans e2.2
    rw [hout] at hlt ⊢
    refine r6 (hcase.imp id (fun hh => ?_)) hlt (c, 0) (hc4 c hc ha) (meets_accepted hp w _ _ hm)
    have := hc2.length_le
    simp only [List.length_map] at this
    omega

/-- **C15**: the call always finishes: the limit grows past any configured limit. -/
theorem cross_reference_finishes [Archimedean K] (o : Options K) (ref : Core K) (w : Filter → K) (n : Nat)
    (catalogue : List (Core K)) (hu : NamesUnique catalogue) :
    ∃ fuel, (crossReference o ref w n catalogue fuel Memo.empty).isSome = true := by
  obtain ⟨hc1, _, hc3, _⟩ := candidates_admissible o ref catalogue
  have hcat : ∀ p ∈ candidates o ref catalogue, p.1 ∈ catalogue := fun p hp => (hc1 p hp).1
  choose res r1 r2 r3 r4 r5 _ using fun limit =>
    applyFilters_spec hu ref w n (candidates o ref catalogue) hcat hc3 limit
  have loop : ∀ (fuel k : Nat) (m : Memo K) (out : List (Core K × K)), Sound catalogue ref (limitAt k) m →
      o.limit < limitAt (k + fuel) →
      (searchLoop o.limit n (applyFilters ref w n (candidates o ref catalogue)) (fuel + 1) (limitAt k) m out).isSome =
        true := by
    intro fuel
    induction fuel with
    | zero =>
      intro k m out _ hk
      simp only [searchLoop]
      rw [if_neg (fun h => absurd h.1 (not_le.mpr hk))]
      rfl
    | succ fuel ih =>
      intro k m out hm hk
      rw [searchLoop]
      by_cases hc : limitAt k ≤ o.limit ∧ out.length < n
      · rw [if_pos hc, nextLimit_at]
        obtain ⟨m1, hm1, e1⟩ := r5 (limitAt (k + 1)) m (sound_mono (limitAt_mono (Nat.le_succ k)) hm)
        rw [e1]
        exact ih (k + 1) m1 _ hm1 (by rw [Nat.add_right_comm]; exact hk)
      · rw [if_neg hc]; rfl
  obtain ⟨N, hN⟩ := pow_unbounded_of_one_lt (4 * o.limit) (by norm_num : (1 : K) < 2)
  refine ⟨N + 2, ?_⟩
  unfold crossReference
  rw [searchLoop]
  by_cases hc : (0 : K) ≤ o.limit ∧ ([] : List (Core K × K)).length < n
  · rw [if_pos hc, nextLimit_zero]
    obtain ⟨m1, hm1, e1⟩ := r5 (limitAt 0) Memo.empty (sound_empty _ _ _)
    rw [e1]
    refine loop N 0 m1 _ hm1 ?_
    unfold limitAt
    rw [Nat.zero_add]
    linarith
  · rw [if_neg hc]; rfl

/-! ## C15: histories of calls -/

/-- One call of a history on the same object, reference and inputs. -/
structure Call (K : Type) where
  options : Options K
  weights : Filter → K
  results : Nat
  fuel : Nat

/-- The results of a history of calls, with the last limit of each; `none` if a call does not finish. -/
def history (ref : Core K) (catalogue : List (Core K)) : Memo K → List (Call K) →
    Option (List (Call K × K × List (Core K × K)))
  | _, [] => some []
  | m, c :: cs =>
    match crossReference c.options ref c.weights c.results catalogue c.fuel m with
    | none => none
    | some (L, m', out) => (history ref catalogue m' cs).map ((c, L, out) :: ·)

theorem searchLoop_weak {cat : List (Core K)} (hu : NamesUnique cat) (ref : Core K) (w : Filter → K) (n : Nat)
    (cores : List (Core K × K)) (hl : ∀ p ∈ cores, p.1 ∈ cat) (hs : cores.Pairwise (fun a b => b.2 ≤ a.2)) (maxLimit : K) :
    ∀ (fuel : Nat) (limit big : K) (m : Memo K) (out : List (Core K × K)) (L : K) (m' : Memo K) (res : List (Core K × K)),
      0 ≤ limit → Sound cat ref big m →
      (out.length ≤ n ∧ out.Pairwise (fun a b => b.2 ≤ a.2) ∧ (out.map Prod.fst).Subperm (cores.map Prod.fst) ∧
        ∀ p ∈ out, accepted ref w (max big limit) p.1 = true) →
      searchLoop maxLimit n (applyFilters ref w n cores) fuel limit m out = some (L, m', res) →
      limit ≤ L ∧ Sound cat ref (max big L) m' ∧ res.length ≤ n ∧ res.Pairwise (fun a b => b.2 ≤ a.2) ∧
        (res.map Prod.fst).Subperm (cores.map Prod.fst) ∧ ∀ p ∈ res, accepted ref w (max big L) p.1 = true := by
  intro fuel
  induction fuel with
  | zero => intro limit big m out L m' res _ _ _ h; simp [searchLoop] at h
  | succ fuel ih =>
    intro limit big m out L m' res h0 hm ho h
    simp only [searchLoop] at h
    by_cases hc : limit ≤ maxLimit ∧ out.length < n
    · rw [if_pos hc] at h
      have hnl : limit ≤ nextLimit limit := by
        unfold nextLimit
        split
        · linarith
        · linarith
      obtain ⟨m1, o1, hm1, e1, g1, g2, g3, g4⟩ := applyFilters_weak hu ref w n cores hl hs
        (le_max_right big (nextLimit limit)) m (sound_mono (le_max_left _ _) hm)
      rw [e1] at h
      simp only at h
      obtain ⟨k1, k2, k3, k4, k5, k6⟩ := ih (nextLimit limit) (max big (nextLimit limit)) m1 o1 L m' res
        (le_trans h0 hnl) hm1 ⟨g1, g2, g3, by rw [max_assoc, max_self]; exact g4⟩ h
      have e : max (max big (nextLimit limit)) L = max big L := by rw [max_assoc, max_eq_right k1]
      rw [e] at k2 k6
      exact ⟨le_trans hnl k1, k2, k3, k4, k5, k6⟩
    · rw [if_neg hc] at h
      simp only [Option.some.injEq, Prod.mk.injEq] at h
      obtain ⟨rfl, rfl, rfl⟩ := h
      exact ⟨le_refl _, sound_mono (le_max_left _ _) hm, ho⟩

theorem history_from (ref : Core K) (hp : Physical ref) (catalogue : List (Core K)) (hu : NamesUnique catalogue) :
    ∀ (calls : List (Call K)) (big : K) (m : Memo K) (rs : List (Call K × K × List (Core K × K))),
      Sound catalogue ref big m → history ref catalogue m calls = some rs →
      ∀ before r after, rs = before ++ r :: after →
        r.2.2.length ≤ r.1.results ∧ r.2.2.Pairwise (fun a b => b.2 ≤ a.2) ∧
        (r.2.2.map Prod.fst).Subperm catalogue ∧
        ∀ p ∈ r.2.2, Admissible r.1.options ref p.1 ∧
          ∃ L, (L = big ∨ ∃ q ∈ before ++ [r], L = q.2.1) ∧ Meets ref r.1.weights L p.1 := by
  intro calls
  induction calls with
  | nil =>
    intro big m rs _ h before r after hr
    simp only [history, Option.some.injEq] at h
    subst h
    simp at hr
  | cons c cs ih =>
    intro big m rs hm h before r after hr
    simp only [history] at h
    cases hx : crossReference c.options ref c.weights c.results catalogue c.fuel m with
    | none => rw [hx] at h; simp at h
    | some x =>
      obtain ⟨L, m', out⟩ := x
      rw [hx] at h
      simp only [Option.map_eq_some_iff] at h
      obtain ⟨rs', hrs, rfl⟩ := h
      obtain ⟨hc1, hc2, hc3, _⟩ := candidates_admissible c.options ref catalogue
      obtain ⟨_, g1, g2, g3, g4, g5⟩ := searchLoop_weak hu ref c.weights c.results
        (candidates c.options ref catalogue) (fun p hp => (hc1 p hp).1) hc3 c.options.limit c.fuel 0 big m [] L m' out
        (le_refl _) hm ⟨by simp, List.Pairwise.nil, by simp, by simp⟩ hx
      cases before with
      | nil =>
        simp only [List.nil_append, List.cons.injEq] at hr
        obtain ⟨rfl, rfl⟩ := hr
        refine ⟨g2, g3, g4.trans hc2.subperm, ?_⟩
        intro p hpo
        have : p.1 ∈ (candidates c.options ref catalogue).map Prod.fst :=
          g4.subset (List.mem_map.mpr ⟨p, hpo, rfl⟩)
        obtain ⟨q, hq, he⟩ := List.mem_map.mp this
        refine ⟨he ▸ (hc1 q hq).2, max big L, ?_, accepted_meets hp _ _ _ (g5 p hpo)⟩
        rcases max_choice big L with e | e
        · exact Or.inl e
        · exact Or.inr ⟨(c, L, out), by simp, e⟩
      | cons b before =>
        simp only [List.cons_append, List.cons.injEq] at hr
        obtain ⟨rfl, rfl⟩ := hr
        obtain ⟨k1, k2, k3, k4⟩ := ih (max big L) m' _ g1 hrs before r after rfl
        refine ⟨k1, k2, k3, ?_⟩
        intro p hpo
        obtain ⟨a1, L', hL, a2⟩ := k4 p hpo
        refine ⟨a1, L', ?_, a2⟩
        rcases hL with hL | ⟨q, hq, hL⟩
        · rcases max_choice big L with e | e
          · exact Or.inl (hL.trans e)
          · exact Or.inr ⟨(c, L, out), by simp, hL.trans e⟩
        · exact Or.inr ⟨q, List.mem_cons_of_mem _ hq, hL⟩

/-- **C15**, histories, partial: any number of calls on one object with the same reference and inputs but any
options, weights and numbers of results: every result is bounded, sorted, from the catalogue and admissible, and
closer than one of the limits used so far. What is missing: the limit of the call itself (`second_call_looser`) and
calls with different references (`stale_reference`). -/
theorem history_partial (ref : Core K) (hp : Physical ref) (catalogue : List (Core K)) (hu : NamesUnique catalogue)
    (calls : List (Call K)) (rs : List (Call K × K × List (Core K × K)))
    (h : history ref catalogue Memo.empty calls = some rs) (before : List (Call K × K × List (Core K × K)))
    (r : Call K × K × List (Core K × K)) (after : List (Call K × K × List (Core K × K))) (hr : rs = before ++ r :: after) :
    r.2.2.length ≤ r.1.results ∧ r.2.2.Pairwise (fun a b => b.2 ≤ a.2) ∧
    (r.2.2.map Prod.fst).Subperm catalogue ∧
    ∀ p ∈ r.2.2, Admissible r.1.options ref p.1 ∧
      ∃ L, (L = 0 ∨ ∃ q ∈ before ++ [r], L = q.2.1) ∧ Meets ref r.1.weights L p.1 :=
  history_from ref hp catalogue hu calls 0 Memo.empty rs (sound_empty _ _ _) h before r after hr

/-! ## Disagreements -/

/-- A core for the examples. -/
def demoCore (name shape : String) (permeance : ℚ) : Core ℚ where
  name := name
  shape := shape
  material := "N87"
  manufacturer := "X"
  permeance := permeance
  windowArea := 1
  effectiveArea := 1
  depth := 1
  height := 1
  width := 1
  losses := some (1, 1 / 10)
  bsat := 2 / 5

/-- Only permeance has a weight. -/
def onlyPermeance : Filter → ℚ := fun f => if f = .permeance then 1 else 0

/-- Any core, with the given limit. -/
def plain (limit : ℚ) : Options ℚ := ⟨none, false, fun _ => true, limit⟩

/-- Names of the results. -/
def names (r : Option (ℚ × Memo ℚ × List (Core ℚ × ℚ))) : Option (ℚ × List String) :=
  r.map (fun x => (x.1, x.2.2.map (fun p => p.1.name)))

/-- Disagreement with **C15**: with the limit set to 0.1 a core that differs by 20% is returned, and with the default
limit of 1 one that differs by 150%. -/
theorem limit_exceeded :
    names (crossReference (plain (1 / 10)) (demoCore "ref" "E" 10) onlyPermeance 1 [demoCore "a" "F" 12] 5 Memo.empty) =
      some (1 / 4, ["a"]) ∧
    names (crossReference (plain 1) (demoCore "ref" "E" 10) onlyPermeance 1 [demoCore "a" "F" 25] 9 Memo.empty) =
      some (2, ["a"]) := by decide +kernel

/-- Disagreement with **C15**: after a call for one reference, a call on the same object for another reference
returns, at the first limit, a core that differs from it by 90%. -/
theorem stale_reference :
    (match crossReference (plain 1) (demoCore "r1" "E" 10) onlyPermeance 1 [demoCore "a" "F" 10] 5 Memo.empty with
      | some (_, m, _) =>
        names (crossReference (plain 1) (demoCore "r2" "E" 100) onlyPermeance 1 [demoCore "a" "F" 10] 5 m)
      | none => none) = some (1 / 4, ["a"]) := by decide +kernel

/-- Disagreement with **C15**: a second call with the same reference keeps, at a tight limit, what the first call
accepted at a looser one. -/
theorem second_call_looser :
    (match crossReference (plain 1) (demoCore "r" "E" 10) onlyPermeance 1 [demoCore "a" "F" 18] 9 Memo.empty with
      | some (L, m, _) =>
        (names (crossReference (plain 1) (demoCore "r" "E" 10) onlyPermeance 1 [demoCore "a" "F" 18] 9 m)).map
          (fun r => (L, r))
      | none => none) = some (1, 1 / 4, ["a"]) := by decide +kernel

/-- A concrete case that meets the hypotheses of the theorems above. -/
example : Physical (demoCore "ref" "E" 10) ∧ NamesUnique [demoCore "a" "F" 12, demoCore "b" "F" 10] ∧
    Admissible (plain 1) (demoCore "ref" "E" 10) (demoCore "a" "F" 12) := by
  refine ⟨⟨?_, ?_, ?_, ?_, ?_, ?_, ?_⟩, ?_, ⟨?_, ?_, ?_, ?_⟩⟩ <;> simp [demoCore, NamesUnique, plain]

/-- A concrete case for `nothing_missed`: two results are asked for, losses have no weight, and the only near core is
found. -/
example : names (crossReference (plain 1) (demoCore "ref" "E" 10) onlyPermeance 2 [demoCore "a" "F" 12] 9 Memo.empty) =
    some (2, ["a"]) ∧ onlyPermeance .coreLosses ≤ 0 := by decide +kernel

/-! ## C49: what a core's score is made of -/

theorem zip_keeps (jd : Core K → Option K) (c : Num K → K) (l : List (Core K × K)) :
    ((keeps jd l).zip (fins jd l)).map (fun p => (p.1.1, p.1.2 + c p.2)) =
      l.filterMap (fun p => (jd p.1).map (fun s => (p.1, p.2 + c (.fin s)))) := by
  induction l with
  | nil => rfl
  | cons p l ih =>
    simp only [keeps, fins] at *
    cases h : jd p.1 <;> simp [h, ih]

/-- **C49**, partial: in each of the four geometric filters what is added to a core's score depends on that core's own
distance to the reference: one function from distances to contributions, which does not grow with the distance,
gives the new scores of all the cores kept. What is missing: the saturation part of the losses filter
(`saturation_misattributed`). -/
theorem own_contribution_partial (ref : Core K) (limit weight : K) (hw : 0 < weight) (f : Filter) (hf : f ≠ .coreLosses)
    (l out : List (Core K × K)) (m' : Memo K)
    (h : geometricFilter ref limit weight f false Memo.empty l = some (m', out))
    (hn : NamesUnique (l.map Prod.fst)) :
    ∃ c : K → K, (∀ s t, (∃ p ∈ l, judge ref limit f p.1 = some s) → (∃ p ∈ l, judge ref limit f p.1 = some t) →
        s ≤ t → c t ≤ c s) ∧
      out.Perm (l.filterMap (fun p => (judge ref limit f p.1).map (fun s => (p.1, p.2 + c s)))) := by
  obtain ⟨_, g2, g3⟩ := cullLoop_spec hn ref limit f hf l Memo.empty (fun p hp => List.mem_map.mpr ⟨p, hp, rfl⟩)
    (sound_empty _ _ _)
  simp only [geometricFilter] at h
  rw [if_neg (by simp [hw]), g2, g3] at h
  simp only [Option.map_eq_some_iff, Prod.mk.injEq] at h
  obtain ⟨o, ho, _, rfl⟩ := h
  have hmem : ∀ s, (∃ p ∈ l, judge ref limit f p.1 = some s) → Num.fin s ∈ fins (judge ref limit f) l := by
    rintro s ⟨p, hp, hs⟩
    exact List.mem_filterMap.mpr ⟨p, hp, by simp [hs]⟩
  cases hk : keeps (judge ref limit f) l with
  | nil =>
    rw [hk] at ho
    simp only [rescore, Option.some.injEq] at ho
    have hnone : ∀ p ∈ l, judge ref limit f p.1 = none := by
      intro p hp
      have := List.filter_eq_nil_iff.mp hk p hp
      simpa using this
    refine ⟨fun _ => 0, fun _ _ _ _ _ => le_refl _, ?_⟩
    rw [← ho, List.filterMap_eq_nil_iff.mpr (fun p hp => by simp [hnone p hp])]
  | cons k ks =>
    have hlen := keeps_fins (judge ref limit f) l
    cases hfs : fins (judge ref limit f) l with
    | nil => rw [hk, hfs] at hlen; simp at hlen
    | cons x xs =>
      have hfin : ∀ v ∈ fins (judge ref limit f) l, ∃ y, v = Num.fin y := by
        intro v hv
        obtain ⟨p, _, hp⟩ := List.mem_filterMap.mp hv
        obtain ⟨y, _, rfl⟩ := Option.map_eq_some_iff.mp hp
        exact ⟨y, rfl⟩
      rw [hfs] at hfin hmem hlen
      obtain ⟨y, rfl⟩ := hfin x (by simp)
      obtain ⟨mx, c, after, _, e, hre, _, hmono, _⟩ := Scoring.cross_reranked (I := Core K) (id : K → K)
        (fun u v _ h => h) weight hw.le true false (k :: ks) y xs
        (fun v hv => by obtain ⟨z, rfl⟩ := hfin v (by simp [hv]); simp) (by rw [hk] at hlen; simpa using hlen.le)
        (by simp)
      rw [hk, hfs] at ho
      simp only [rescore, e, Option.some.injEq] at ho
      subst ho
      refine ⟨fun s => c (.fin s), ?_, ?_⟩
      · intro s t hs ht hst
        have := hmono (.fin s) (hmem s hs) (.fin t) (hmem t ht) (by simpa [Scoring.project] using hst)
        simpa using this
      · refine hre.perm.trans (List.Perm.of_eq ?_)
        rw [← hk, ← hfs, zip_keeps]

/-- A core for the next example: losses and saturation field. -/
def satCore (name : String) (losses bsat : ℚ) : Core ℚ :=
  { demoCore name "F" 1 with losses := some (losses, 1 / 10), bsat := bsat }

/-- Disagreement with **C49**: the saturation scores are added in the order before the losses sort the cores. Core "a"
has exactly the reference's saturation ratio and the worse losses, core "b" the better losses and another ratio; "b"
gets the whole saturation weight and "a" nothing. -/
theorem saturation_misattributed :
    (lossFilter (satCore "ref" 10 1) 1 1 1 Memo.empty [(satCore "a" 14 1, 0), (satCore "b" 11 (1 / 2), 0)]).map
        (fun r => r.2.map (fun p => (p.1.name, p.2))) = some [("b", 2), ("a", 0)] ∧
    judge (satCore "ref" 10 1) 1 .saturation (satCore "a" 14 1) = some 0 ∧
    judge (satCore "ref" 10 1) 1 .saturation (satCore "b" 11 (1 / 2)) = some (1 / 10) := by
  refine ⟨?_, by decide +kernel, by decide +kernel⟩
  simp only [lossFilter, rescore_ins]
  decide +kernel

/-- Losses only. -/
def onlyLosses : Filter → ℚ := fun f => if f = .coreLosses then 1 else 0

/-- Fewer cores than asked for can come back although enough are acceptable: the list is cut to 1.1 times the number
before the losses are looked at. -/
theorem cut_before_losses :
    (applyFilters (satCore "ref" 10 1) onlyLosses 1 [(satCore "a" 99 1, 0), (satCore "b" 10 1, 0)] (1 / 4)
      Memo.empty).map (fun r => r.2.map (fun p => p.1.name)) = some [] ∧
    accepted (satCore "ref" 10 1) onlyLosses (1 / 4) (satCore "b" 10 1) = true := by
  decide +kernel

end Verif.CrossRef
